import Verif.Lemmas.Fft

namespace Lemmas

open Model Spec

variable {F : Type} [Field F]

/-- Product of two transforms, transformed back: cyclic convolution. -/
theorem dft_conv (w : F) (n : ℕ) (hp : IsPrimitiveRoot w n) (hn : (n : F) ≠ 0) (x y : ℕ → F) (t : ℕ) (ht : t < n) :
    (∑ k ∈ Finset.range n, w⁻¹ ^ (t * k) * ((∑ a ∈ Finset.range n, w ^ (k * a) * x a) * (∑ b ∈ Finset.range n, w ^ (k * b) * y b)))
        * (n : F)⁻¹
      = ∑ a ∈ Finset.range n, x a * y ((t + n - a) % n) := by
  have hnpos : 0 < n := by omega
  have h1 : ∀ k, w⁻¹ ^ (t * k) * ((∑ a ∈ Finset.range n, w ^ (k * a) * x a) * (∑ b ∈ Finset.range n, w ^ (k * b) * y b))
      = ∑ a ∈ Finset.range n, ∑ b ∈ Finset.range n, x a * y b * (w⁻¹ ^ (t * k) * w ^ (k * ((a + b) % n))) := by
    intro k
    have hmod : ∀ m, w ^ (k * (m % n)) = w ^ (k * m) := by
      intro m
      rw [mul_comm, pow_mul, mul_comm, pow_mul]
      congr 1
      conv_rhs => rw [← Nat.mod_add_div m n, pow_add, pow_mul, hp.pow_eq_one, one_pow, mul_one]
    rw [Finset.sum_mul_sum, Finset.mul_sum]
    apply Finset.sum_congr rfl
    intro a _
    rw [Finset.mul_sum]
    apply Finset.sum_congr rfl
    intro b _
    rw [hmod, mul_add, pow_add]
    ring
  simp only [h1]
  rw [Finset.sum_comm, Finset.sum_mul]
  apply Finset.sum_congr rfl
  intro a ha
  rw [Finset.mem_range] at ha
  rw [Finset.sum_comm]
  simp only [← Finset.mul_sum]
  have h2 : ∀ b, ∑ k ∈ Finset.range n, w⁻¹ ^ (t * k) * w ^ (k * ((a + b) % n)) = if t = (a + b) % n then (n : F) else 0 :=
    fun b => sum_root w n hp t _ ht (Nat.mod_lt _ hnpos)
  simp only [h2]
  have hcong : ∀ b ∈ Finset.range n, x a * y b * (if t = (a + b) % n then (n : F) else 0)
      = if b = (t + n - a) % n then x a * y ((t + n - a) % n) * (n : F) else 0 := by
    intro b hb
    rw [Finset.mem_range] at hb
    have hiff : t = (a + b) % n ↔ b = (t + n - a) % n := by
      constructor
      · intro h
        rcases Nat.lt_or_ge (a + b) n with hab | hab
        · rw [Nat.mod_eq_of_lt hab] at h
          rw [h, show a + b + n - a = b + n by omega, Nat.add_mod_right, Nat.mod_eq_of_lt hb]
        · rw [Nat.mod_eq_sub_mod hab, Nat.mod_eq_of_lt (by omega)] at h
          rw [h, show a + b - n + n - a = b by omega, Nat.mod_eq_of_lt hb]
      · intro h
        rcases Nat.lt_or_ge (t + n - a) n with hab | hab
        · rw [Nat.mod_eq_of_lt hab] at h
          rw [h, show a + (t + n - a) = t + n by omega, Nat.add_mod_right, Nat.mod_eq_of_lt ht]
        · rw [Nat.mod_eq_sub_mod hab, Nat.mod_eq_of_lt (by omega)] at h
          rw [h, show a + (t + n - a - n) = t by omega, Nat.mod_eq_of_lt ht]
    by_cases hc : b = (t + n - a) % n
    · rw [if_pos (hiff.2 hc), if_pos hc, hc]
    · rw [if_neg (fun h => hc (hiff.1 h)), if_neg hc, mul_zero]
  rw [Finset.sum_congr rfl hcong, Finset.sum_ite_eq' (Finset.range n), if_pos (Finset.mem_range.2 (Nat.mod_lt _ hnpos)),
    mul_assoc, mul_inv_cancel₀ hn, mul_one]

theorem natCast_pow_ne_zero (w : F) (L : ℕ) (hp : IsPrimitiveRoot w (2 ^ (L + 1))) : ((2 ^ (L + 1) : ℕ) : F) ≠ 0 := by
  have hneg := primitive_neg w L hp
  have h2 : (2 : F) ≠ 0 := by
    intro h
    have h1 : w ^ (2 ^ L) = 1 := by rw [hneg]; linear_combination -h
    have h3 := Nat.le_of_dvd (Nat.two_pow_pos _) (hp.dvd_of_pow_eq_one _ h1)
    rw [pow_succ] at h3
    have := Nat.two_pow_pos L
    omega
  push_cast
  exact pow_ne_zero _ h2

/-- Sum over one vector per channel: products accumulated, then transformed back. -/
theorem fft_conv_channels (A : ℕ) (g : F) (hg : IsPrimitiveRoot g (2 ^ A)) (L : ℕ) (hL : L + 1 ≤ A) (c : ℕ)
    (x y : ℕ → List F) (hx : ∀ j, j < c → (x j).length = 2 ^ (L + 1)) (hy : ∀ j, j < c → (y j).length = 2 ^ (L + 1)) :
    ∃ X Y : ℕ → List F, (∀ j, j < c → fft A g false (x j) = some (X j) ∧ (X j).length = 2 ^ (L + 1)) ∧
      (∀ j, j < c → fft A g false (y j) = some (Y j) ∧ (Y j).length = 2 ^ (L + 1)) ∧
      ∀ acc : List F, acc.length = 2 ^ (L + 1) → (∀ k, k < 2 ^ (L + 1) → acc.getD k 0 = ∑ j ∈ Finset.range c, (X j).getD k 0 * (Y j).getD k 0) →
        ∃ out, fft A g true acc = some out ∧ out.length = 2 ^ (L + 1) ∧ ∀ t, t < 2 ^ (L + 1) →
          out.getD t 0 = ∑ j ∈ Finset.range c, ∑ a ∈ Finset.range (2 ^ (L + 1)), (x j).getD a 0 * (y j).getD ((t + 2 ^ (L + 1) - a) % 2 ^ (L + 1)) 0 := by
  obtain ⟨w, hw, hp⟩ := primitive_of_square A g hg (L + 1) hL
  refine ⟨fun j => (fft A g false (x j)).getD [], fun j => (fft A g false (y j)).getD [], ?_, ?_, ?_⟩
  · intro j hj
    obtain ⟨o, h1, h2, _⟩ := fft_forward A g hg L hL w hw (x j) (hx j hj)
    beta_reduce; rw [h1]; exact ⟨rfl, h2⟩
  · intro j hj
    obtain ⟨o, h1, h2, _⟩ := fft_forward A g hg L hL w hw (y j) (hy j hj)
    beta_reduce; rw [h1]; exact ⟨rfl, h2⟩
  · intro acc hal hacc
    obtain ⟨out, h1, h2, h3⟩ := fft_inverse A g hg L hL w hw acc hal
    refine ⟨out, h1, h2, ?_⟩
    intro t ht
    rw [h3 t ht]
    have hstep : ∀ k ∈ Finset.range (2 ^ (L + 1)), w⁻¹ ^ (t * k) * acc.getD k 0 = ∑ j ∈ Finset.range c, w⁻¹ ^ (t * k) *
        ((∑ a ∈ Finset.range (2 ^ (L + 1)), w ^ (k * a) * (x j).getD a 0) * (∑ b ∈ Finset.range (2 ^ (L + 1)), w ^ (k * b) * (y j).getD b 0)) := by
      intro k hk
      rw [Finset.mem_range] at hk
      rw [hacc k hk, Finset.mul_sum]
      apply Finset.sum_congr rfl
      intro j hj
      rw [Finset.mem_range] at hj
      obtain ⟨o, e1, _, e3⟩ := fft_forward A g hg L hL w hw (x j) (hx j hj)
      obtain ⟨o', e1', _, e3'⟩ := fft_forward A g hg L hL w hw (y j) (hy j hj)
      beta_reduce
      rw [e1, e1', Option.getD_some, Option.getD_some, e3 k hk, e3' k hk]
    rw [Finset.sum_congr rfl hstep, Finset.sum_comm, Finset.sum_mul]
    apply Finset.sum_congr rfl
    intro j _
    exact dft_conv w _ hp (natCast_pow_ne_zero w L hp) (fun a => (x j).getD a 0) (fun b => (y j).getD b 0) t ht

/-- One kernel written into the frame. -/
theorem indexW_spec (toF : ℤ → F) (w : List ℤ) (K n len : ℕ) (hw : w.length = K * K) :
    ∃ o, indexW toF w K n len = some o ∧ o.length = len ∧ ∀ b, b < len →
      o.getD b 0 = if b / n < K ∧ b % n < K then toF (w.getD (b / n * K + b % n) 0) else 0 := by
  refine ⟨(List.range len).map fun b => if b / n < K ∧ b % n < K then toF (w.getD (b / n * K + b % n) 0) else 0, ?_, by simp, ?_⟩
  · unfold indexW
    apply mapM_some'
    intro b _
    by_cases h : b / n < K ∧ b % n < K
    · rw [if_pos h, if_pos h, getElem?_of_lt w _ 0 (by rw [hw]; exact mul_add_lt h.1 h.2)]
      rfl
    · rw [if_neg h, if_neg h]
  · intro b hb
    rw [getD_map_range' _ _ _ _ hb]

theorem accumulate_spec (n : ℕ) (o x w : List F) (ho : o.length = n) (hx : n ≤ x.length) (hw : n ≤ w.length) :
    ∃ o', accumulate o x w = some o' ∧ o'.length = n ∧ ∀ k, k < n → o'.getD k 0 = o.getD k 0 + x.getD k 0 * w.getD k 0 := by
  refine ⟨(List.range n).map fun k => o.getD k 0 + x.getD k 0 * w.getD k 0, ?_, by simp, ?_⟩
  · unfold accumulate
    rw [ho]
    apply mapM_some'
    intro k hk
    rw [List.mem_range] at hk
    rw [getElem?_of_lt o k 0 (by omega), getElem?_of_lt x k 0 (by omega), getElem?_of_lt w k 0 (by omega)]
    rfl
  · intro k hk
    rw [getD_map_range' _ _ _ _ hk]

theorem slice_spec {α : Type} (v : List α) (a b : ℕ) (z : α) (h : a ≤ b) (hb : b ≤ v.length) :
    ∃ o, slice? v a b = some o ∧ o.length = b - a ∧ ∀ i, i < b - a → o.getD i z = v.getD (a + i) z := by
  refine ⟨(v.take b).drop a, by rw [slice?, if_pos ⟨h, hb⟩], by simp; omega, ?_⟩
  intro i hi
  simp only [List.getD_eq_getElem?_getD, List.getElem?_drop, List.getElem?_take]
  rw [if_pos (by omega)]

theorem getD_reverse' {α : Type} (l : List α) (i : ℕ) (z : α) (h : i < l.length) : l.reverse.getD i z = l.getD (l.length - 1 - i) z := by
  simp only [List.getD_eq_getElem?_getD]
  rw [List.getElem?_reverse h]

/-- The sum behind one output position: `frame` holds a K×K kernel in rows of length n, `rev` the reversed input. -/
theorem conv_sum (n K y : ℕ) (frame inp : ℕ → F) (kern : ℕ → ℕ → F) (x : ℕ → F) (hn : 0 < n) (hK : K ≤ n) (hy : y < n * n)
    (hframe : ∀ b, b < 2 * n * n → frame b = if b / n < K ∧ b % n < K then kern (b / n) (b % n) else 0)
    (hinp : ∀ a, a < 2 * n * n → inp a = if a < n * n then x (n * n - 1 - a) else 0) :
    ∑ b ∈ Finset.range (2 * n * n), frame b * inp ((n * n - 1 - y + 2 * n * n - b) % (2 * n * n))
      = ∑ r ∈ Finset.range K, ∑ s ∈ Finset.range K, kern r s * (if y + (r * n + s) < n * n then x (y + (r * n + s)) else 0) := by
  rw [sum_range_mul']
  have h1 : ∀ r ∈ Finset.range (2 * n), (∑ s ∈ Finset.range n, frame (r * n + s) * inp ((n * n - 1 - y + 2 * n * n - (r * n + s)) % (2 * n * n)))
      = if r < K then ∑ s ∈ Finset.range K, kern r s * (if y + (r * n + s) < n * n then x (y + (r * n + s)) else 0) else 0 := by
    intro r hr
    rw [Finset.mem_range] at hr
    by_cases hrK : r < K
    · rw [if_pos hrK]
      rw [← sum_range_le K n _ hK]
      apply Finset.sum_congr rfl
      intro s hs
      rw [Finset.mem_range] at hs
      have hb : r * n + s < n * n := mul_add_lt (by omega) hs
      have hb2 : 2 * n * n = n * n + n * n := by ring
      rw [hframe _ (by omega), mul_add_div' hs, mul_add_mod' hs]
      by_cases hsK : s < K
      · rw [if_pos ⟨hrK, hsK⟩, if_pos hsK]
        congr 1
        by_cases hlt : y + (r * n + s) < n * n
        · rw [if_pos hlt, show n * n - 1 - y + 2 * n * n - (r * n + s) = n * n - 1 - y - (r * n + s) + 2 * n * n by omega,
            Nat.add_mod_right, Nat.mod_eq_of_lt (by omega), hinp _ (by omega), if_pos (by omega)]
          congr 1
          omega
        · rw [if_neg hlt, Nat.mod_eq_of_lt (by omega), hinp _ (by omega), if_neg (by omega)]
      · rw [if_neg (fun h => hsK h.2), if_neg hsK, zero_mul]
    · rw [if_neg hrK]
      apply Finset.sum_eq_zero
      intro s hs
      rw [Finset.mem_range] at hs
      rw [hframe _ (by rw [mul_assoc, mul_comm 2, mul_assoc, mul_comm n 2, ← mul_assoc, mul_comm n]; exact mul_add_lt hr hs), mul_add_div' hs,
        if_neg (fun h => hrK h.1), zero_mul]
  rw [Finset.sum_congr rfl h1, sum_range_le K (2 * n) _ (by omega)]

/-- `fft_conv` in the field: every output position, counted from the end of the first half. -/
theorem fftConvField_spec (A : ℕ) (g : F) (hg : IsPrimitiveRoot g (2 ^ A)) (toF : ℤ → F) (m : ℕ) (hm : 2 * m + 1 ≤ A)
    (f : FftFilter) (x : Tensor ℤ) (cx kw kx K : ℕ) (hxs : x.shape = [cx, 2 ^ m, 2 ^ m]) (hxl : x.data.length = cx * (2 ^ m * 2 ^ m))
    (hfs : f.shape = [kw, kx, 2 ^ m, 2 ^ m]) (hfo : f.ogShape = [kw, kx, K, K]) (hfl : f.data.length = kw * kx * K * K)
    (hkx : kx ≤ cx) (hK : K ≤ 2 ^ m) :
    ∃ out, fftConvField A g toF f x = some (2 ^ m, out) ∧ out.length = kw ∧ (∀ o ∈ out, o.length = 2 * 2 ^ m * 2 ^ m) ∧
      ∀ i y, i < kw → y < 2 ^ m * 2 ^ m → (out.getD i []).getD (2 ^ m * 2 ^ m - 1 - y) 0
        = ∑ j ∈ Finset.range kx, ∑ r ∈ Finset.range K, ∑ s ∈ Finset.range K,
            toF (f.data.getD (((i * kx + j) * K + r) * K + s) 0)
              * (if y + (r * 2 ^ m + s) < 2 ^ m * 2 ^ m then toF (x.data.getD (j * (2 ^ m * 2 ^ m) + (y + (r * 2 ^ m + s))) 0) else 0) := by
  obtain ⟨n, hn⟩ : ∃ n, n = 2 ^ m := ⟨_, rfl⟩
  have hnpos : 0 < n := by rw [hn]; exact Nat.two_pow_pos _
  have hN : 2 * n * n = 2 ^ (2 * m + 1) := by rw [hn, pow_succ, two_mul m, pow_add]; ring
  have hnp : nextPow2 n = n := by rw [hn]; exact nextPow2_pow m
  rw [← hn] at hxs hxl hfs hK ⊢
  have hnn : 0 < n * n := Nat.mul_pos hnpos hnpos
  -- inputs
  obtain ⟨xr, hxr⟩ : ∃ xr : ℕ → List F, xr = fun j => resize (2 * n * n) 0 (((x.data.map toF).drop (n * n * j)).take (n * n)).reverse := ⟨_, rfl⟩
  have hxrl : ∀ j, (xr j).length = 2 * n * n := by intro j; rw [hxr]; exact length_resize _ _ _
  have hchl : ∀ j, j < cx → (((x.data.map toF).drop (n * n * j)).take (n * n)).length = n * n := by
    intro j hj
    rw [List.length_take, List.length_drop, List.length_map, hxl]
    have : n * n * j + n * n ≤ cx * (n * n) := by rw [← Nat.mul_succ, mul_comm]; exact Nat.mul_le_mul_right _ hj
    omega
  have hxrv : ∀ j, j < cx → ∀ a, a < 2 * n * n → (xr j).getD a 0 = if a < n * n then toF (x.data.getD (j * (n * n) + (n * n - 1 - a)) 0) else 0 := by
    intro j hj a ha
    rw [hxr]
    beta_reduce
    rw [getD_resize, if_pos ha]
    by_cases h : a < n * n
    · rw [if_pos h, getD_reverse' _ _ _ (by rw [hchl j hj]; exact h), hchl j hj]
      simp only [List.getD_eq_getElem?_getD, List.getElem?_take, List.getElem?_drop, List.getElem?_map]
      rw [if_pos (by omega), mul_comm (n * n) j]
      have : j * (n * n) + (n * n - 1 - a) < x.data.length := by rw [hxl]; exact mul_add_lt hj (by omega)
      rw [List.getElem?_eq_getElem this]
      rfl
    · rw [if_neg h, List.getD_eq_default]
      rw [List.length_reverse, hchl j hj]; omega
  -- kernels
  have hrange : ∀ i j, i < kw → j < kx → i * kx * K * K + (j + 1) * K * K ≤ f.data.length := by
    intro i j hi hj
    rw [hfl]
    have h1 : i * kx + (j + 1) ≤ kw * kx := mul_add_lt hi hj
    calc i * kx * K * K + (j + 1) * K * K = (i * kx + (j + 1)) * (K * K) := by ring
      _ ≤ kw * kx * (K * K) := Nat.mul_le_mul_right _ h1
      _ = kw * kx * K * K := by ring
  have hKK : ∀ i j, i * kx * K * K + (j + 1) * K * K - (i * kx * K * K + j * K * K) = K * K := by
    intro i j
    have : (j + 1) * K * K = j * K * K + K * K := by ring
    omega
  have hker : ∀ i j, i < kw → j < kx → ∃ ws wf, slice? f.data (i * kx * K * K + j * K * K) (i * kx * K * K + (j + 1) * K * K) = some ws ∧
      indexW toF ws K n (2 * n * n) = some wf ∧ wf.length = 2 * n * n ∧
      ∀ b, b < 2 * n * n → wf.getD b 0 = if b / n < K ∧ b % n < K then toF (f.data.getD (((i * kx + j) * K + b / n) * K + b % n) 0) else 0 := by
    intro i j hi hj
    obtain ⟨ws, s1, s2, s3⟩ := slice_spec f.data (i * kx * K * K + j * K * K) (i * kx * K * K + (j + 1) * K * K) 0
      (by have : (j + 1) * K * K = j * K * K + K * K := by ring
          omega) (hrange i j hi hj)
    rw [hKK] at s2 s3
    obtain ⟨wf, w1, w2, w3⟩ := indexW_spec toF ws K n (2 * n * n) s2
    refine ⟨ws, wf, s1, w1, w2, ?_⟩
    intro b hb
    rw [w3 b hb]
    by_cases h : b / n < K ∧ b % n < K
    · rw [if_pos h, if_pos h, s3 _ (mul_add_lt h.1 h.2)]
      congr 2
      ring
    · rw [if_neg h, if_neg h]
  -- one output channel
  have hchan : ∀ i, i < kw → ∃ o out, (List.range kx).foldlM (convStep A g toF f ((List.range cx).map fun j => (fft A g false (xr j)).getD []) kx n K i)
      (List.replicate (2 * n * n) 0) = some o ∧ fft A g true o = some out ∧ out.length = 2 * n * n ∧
      ∀ y, y < n * n → out.getD (n * n - 1 - y) 0
        = ∑ j ∈ Finset.range kx, ∑ r ∈ Finset.range K, ∑ s ∈ Finset.range K, toF (f.data.getD (((i * kx + j) * K + r) * K + s) 0)
              * (if y + (r * n + s) < n * n then toF (x.data.getD (j * (n * n) + (y + (r * n + s))) 0) else 0) := by
    intro i hi
    obtain ⟨W, hW⟩ : ∃ W : ℕ → List F, ∀ j, j < kx → ∃ ws, slice? f.data (i * kx * K * K + j * K * K) (i * kx * K * K + (j + 1) * K * K) = some ws ∧
        indexW toF ws K n (2 * n * n) = some (W j) ∧ (W j).length = 2 * n * n ∧
        ∀ b, b < 2 * n * n → (W j).getD b 0 = if b / n < K ∧ b % n < K then toF (f.data.getD (((i * kx + j) * K + b / n) * K + b % n) 0) else 0 := by
      refine ⟨fun j => if h : j < kx then ((hker i j hi h).choose_spec).choose else [], ?_⟩
      intro j hj
      beta_reduce
      rw [dif_pos hj]
      exact ⟨(hker i j hi hj).choose, (hker i j hi hj).choose_spec.choose_spec⟩
    obtain ⟨Y, X, hY, hX, hacc⟩ := fft_conv_channels A g hg (2 * m) hm kx W xr (fun j hj => by
      obtain ⟨_, _, _, h, _⟩ := hW j hj
      rw [h, hN]) (fun j _ => by rw [hxrl, hN])
    rw [← hN] at hY hX hacc
    have hfold : ∀ c, c ≤ kx → ∃ o, (List.range c).foldlM (convStep A g toF f ((List.range cx).map fun j => (fft A g false (xr j)).getD []) kx n K i)
        (List.replicate (2 * n * n) 0) = some o ∧ o.length = 2 * n * n ∧
        ∀ k, k < 2 * n * n → o.getD k 0 = ∑ j ∈ Finset.range c, (Y j).getD k 0 * (X j).getD k 0 := by
      intro c
      induction c with
      | zero =>
        intro _
        refine ⟨_, rfl, by simp, ?_⟩
        intro k hk
        simp [List.getD_eq_getElem?_getD, List.getElem?_replicate, hk]
      | succ c ih =>
        intro hc
        obtain ⟨o, o1, o2, o3⟩ := ih (by omega)
        obtain ⟨ws, w1, w2, w3, w4⟩ := hW c (by omega)
        obtain ⟨x1, x2⟩ := hX c (by omega)
        obtain ⟨y1, y2⟩ := hY c (by omega)
        obtain ⟨o', a1, a2, a3⟩ := accumulate_spec (2 * n * n) o (X c) (Y c) o2 (by omega) (by omega)
        rw [List.range_succ, List.foldlM_append, o1]
        refine ⟨o', ?_, a2, ?_⟩
        · simp only [Option.bind_eq_bind, Option.bind_some, List.foldlM_cons, List.foldlM_nil, convStep, w1, w2, y1]
          rw [List.getElem?_map, List.getElem?_range (by omega), Option.map_some, x1, Option.getD_some, Option.bind_some, a1]
          rfl
        · intro k hk
          rw [a3 k hk, o3 k hk, Finset.sum_range_succ, mul_comm]
    obtain ⟨o, o1, o2, o3⟩ := hfold kx (le_refl _)
    obtain ⟨out, q1, q2, q3⟩ := hacc o o2 o3
    refine ⟨o, out, o1, q1, q2, ?_⟩
    intro y hy
    have h2 : 2 * n * n = n * n + n * n := by ring
    rw [q3 _ (by omega)]
    apply Finset.sum_congr rfl
    intro j hj
    rw [Finset.mem_range] at hj
    obtain ⟨_, _, _, _, w4⟩ := hW j hj
    have := conv_sum n K y (fun b => (W j).getD b 0) (fun a => (xr j).getD a 0)
      (fun r s => toF (f.data.getD (((i * kx + j) * K + r) * K + s) 0)) (fun a => toF (x.data.getD (j * (n * n) + a) 0))
      hnpos hK hy w4 (hxrv j (by omega))
    exact this
  obtain ⟨G, hG⟩ : ∃ G : ℕ → List F, ∀ i, i < kw → ∃ o, (List.range kx).foldlM (convStep A g toF f ((List.range cx).map fun j => (fft A g false (xr j)).getD []) kx n K i)
      (List.replicate (2 * n * n) 0) = some o ∧ fft A g true o = some (G i) ∧ (G i).length = 2 * n * n ∧
      ∀ y, y < n * n → (G i).getD (n * n - 1 - y) 0
        = ∑ j ∈ Finset.range kx, ∑ r ∈ Finset.range K, ∑ s ∈ Finset.range K, toF (f.data.getD (((i * kx + j) * K + r) * K + s) 0)
              * (if y + (r * n + s) < n * n then toF (x.data.getD (j * (n * n) + (y + (r * n + s))) 0) else 0) := by
    refine ⟨fun i => if h : i < kw then ((hchan i h).choose_spec).choose else [], ?_⟩
    intro i hi
    beta_reduce
    rw [dif_pos hi]
    exact ⟨(hchan i hi).choose, (hchan i hi).choose_spec.choose_spec⟩
  have hxvec : (chunks (n * n) (x.data.map toF)).mapM (fftInput A g (2 * n * n)) = some ((List.range cx).map fun j => (fft A g false (xr j)).getD []) := by
    rw [chunks_eq (n * n) cx hnn _ (by rw [List.length_map, hxl, mul_comm]),
      mapM_some' _ (fun ch => (fft A g false (resize (2 * n * n) 0 ch.reverse)).getD []), List.map_map]
    · rw [hxr]; rfl
    · intro ch _
      unfold fftInput
      obtain ⟨w, hw, _⟩ := primitive_of_square A g hg (2 * m + 1) hm
      obtain ⟨o, h1, _⟩ := fft_forward A g hg (2 * m) hm w hw (resize (2 * n * n) 0 ch.reverse) (by rw [length_resize, hN])
      rw [h1]
      rfl
  have hout : ((List.range kw).mapM fun i => ((List.range kx).foldlM (convStep A g toF f ((List.range cx).map fun j => (fft A g false (xr j)).getD []) kx n K i)
      (List.replicate (2 * n * n) 0)).bind fun o => fft A g true o) = some ((List.range kw).map G) := by
    apply mapM_some'
    intro i hi
    obtain ⟨o, h1, h2, _⟩ := hG i (List.mem_range.1 hi)
    rw [h1, Option.bind_some, h2]
  refine ⟨(List.range kw).map G, ?_, by simp, ?_, ?_⟩
  · unfold fftConvField
    simp only [hxs, hfs, hfo, Option.bind_eq_bind, List.getElem?_cons_succ, List.getElem?_cons_zero, Option.bind_some, hnp, hxvec]
    rw [hout]
    rfl
  · intro o ho
    obtain ⟨i, hi, rfl⟩ := List.mem_map.1 ho
    obtain ⟨_, _, _, h, _⟩ := hG i (List.mem_range.1 hi)
    exact h
  · intro i y hi hy
    obtain ⟨_, _, _, _, h⟩ := hG i hi
    rw [getD_map_range' _ _ _ _ hi]
    exact h y hy

end Lemmas
