import Verif.Lemmas.Conv
import Verif.Props.Fft

/-!
C32: convolution through the FFT equals direct convolution.
-/

namespace Props

open Spec Model Lemmas

/-- C32, reference: `conv2d` (any batch size, sizes and stride) is the textbook sum. -/
theorem C32_direct {R : Type} [Semiring R] (x k bias : Tensor R) (n c h w kn kh kw stride : ℕ) (hxs : x.shape = [n, c, h, w])
    (hxl : x.data.length = n * (c * (h * w))) (hks : k.shape = [kn, c, kh, kw]) (hkl : k.data.length = kn * (c * (kh * kw)))
    (hbs : bias.shape = [kn]) (hbl : bias.data.length = kn) (hkh : kh ≤ h) (hkw : kw ≤ w) (hst : 0 < stride) :
    ∃ out, conv2d x k bias stride = some ⟨[n, kn, (h - kh) / stride + 1, (w - kw) / stride + 1], out⟩ ∧
      out.length = n * kn * ((h - kh) / stride + 1) * ((w - kw) / stride + 1) ∧
      ∀ b o r s, b < n → o < kn → r < (h - kh) / stride + 1 → s < (w - kw) / stride + 1 →
        out.getD (flat [n, kn, (h - kh) / stride + 1, (w - kw) / stride + 1] [b, o, r, s]) 0
          = convSum c kh kw stride (fun o j a b => k.data.getD (flat [kn, c, kh, kw] [o, j, a, b]) 0)
              (fun j y z => x.data.getD (flat [n, c, h, w] [b, j, y, z]) 0) o r s + bias.data.getD o 0 :=
  conv2d_spec x k bias n c h w kn kh kw stride (by rw [hxs]; rfl) (by rw [hxs]; simp) hxl hks hkl hbs hbl hkh hkw hst

/-- The frame has the size of the padded input exactly if the padded kernel is smaller than the padded input, or has size one. -/
theorem frame_size (a b : ℕ) (h : 2 ^ b = 1 ∨ 2 ^ b < 2 ^ a) : nextPow2 (2 ^ a - 2 ^ b + 1) = 2 ^ a := by
  rcases h with h | h
  · rw [h, Nat.sub_add_cancel (Nat.one_le_two_pow)]; exact nextPow2_pow a
  · have hba : b < a := (Nat.pow_lt_pow_iff_right (by omega)).1 h
    apply le_antisymm
    · apply nextPow2_min
      have := Nat.two_pow_pos b
      omega
    · obtain ⟨a, rfl⟩ : ∃ a', a = a' + 1 := ⟨a - 1, by omega⟩
      have h1 : 2 ^ b ≤ 2 ^ a := Nat.pow_le_pow_right (by omega) (by omega)
      have h2 : 2 ^ a < 2 ^ (a + 1) - 2 ^ b + 1 := by rw [pow_succ]; omega
      rw [nextPow2]
      apply Nat.pow_le_pow_right (by omega)
      exact (Nat.lt_clog_iff_pow_lt (by omega)).2 h2

/-- C32. For every input of size c×h×h, filter of size o×c×k×k with k ≤ h and bias: the layer prepared for the FFT, applied to any
padded input that agrees with the input on its c×h×h entries (the others may hold anything), returns the values of the direct
convolution on the entries of its result, and zero elsewhere. The result (before the bias) has to be below half of the field size,
the padded kernel smaller than the padded input, and the length of the transforms at most `2^A`. -/
theorem C32_layer_partial (p : ℕ) [Fact p.Prime] (A : ℕ) (g : ZMod p) (hg : IsPrimitiveRoot g (2 ^ A)) (x xp filter bias : Tensor ℤ)
    (c h o k : ℕ) (hxs : x.shape = [c, h, h]) (hxl : x.data.length = c * (h * h)) (hfs : filter.shape = [o, c, k, k])
    (hfl : filter.data.length = o * (c * (k * k))) (hbs : bias.shape = [o]) (hbl : bias.data.length = o)
    (hc : 0 < c) (ho : 0 < o) (hk : 0 < k) (hkh : k ≤ h) (hfit : nextPow2 k = 1 ∨ nextPow2 k < nextPow2 h)
    (hA : 2 * (nextPow2 h * nextPow2 h) ≤ 2 ^ A)
    (hxps : xp.shape = [nextPow2 c, nextPow2 h, nextPow2 h]) (hxpl : xp.data.length = nextPow2 c * (nextPow2 h * nextPow2 h))
    (hagree : ∀ j a b, j < c → a < h → b < h → xp.data.getD (flat xp.shape [j, a, b]) 0 = x.data.getD (flat x.shape [j, a, b]) 0)
    (hxb : ∀ e ∈ x.data, e.natAbs ≤ p) (hfb : ∀ e ∈ filter.data, e.natAbs ≤ p)
    (hbound : ∀ i r s, i < o → r + k ≤ h → s + k ≤ h → 2 * (convSum c k k 1 (fun o' j a b => filter.data.getD (flat [o, c, k, k] [o', j, a, b]) 0)
      (fun j a b => x.data.getD (flat [c, h, h] [j, a, b]) 0) i r s).natAbs < p) :
    ∃ layer out ref, intoPaddedAndFfted filter bias [c, h, h] = some layer ∧
      layer.op A g (toField p) toElement xp [c, h, h] = some out ∧ conv2d x filter bias 1 = some ref ∧
      ref.shape = [1, o, h - k + 1, h - k + 1] ∧
      out.shape = [nextPow2 o, nextPow2 h, nextPow2 h] ∧ out.data.length = nextPow2 o * (nextPow2 h * nextPow2 h) ∧
      ∀ i r s, i < nextPow2 o → r < nextPow2 h → s < nextPow2 h → out.data.getD (flat out.shape [i, r, s]) 0
        = if i < o ∧ r < h - k + 1 ∧ s < h - k + 1 then ref.data.getD (flat ref.shape [0, i, r, s]) 0 else 0 := by
  obtain ⟨m, hm⟩ : ∃ m, nextPow2 h = 2 ^ m := ⟨_, rfl⟩
  obtain ⟨e, he⟩ : ∃ e, nextPow2 k = 2 ^ e := ⟨_, rfl⟩
  have hmA : 2 * m + 1 ≤ A := by
    rw [hm] at hA
    have : 2 ^ (2 * m + 1) ≤ 2 ^ A := by
      calc 2 ^ (2 * m + 1) = 2 * (2 ^ m * 2 ^ m) := by rw [pow_succ, two_mul m, pow_add]; ring
        _ ≤ 2 ^ A := hA
    exact (Nat.pow_le_pow_iff_right (by omega)).1 this
  have hKn : nextPow2 k ≤ nextPow2 h := by
    have := nextPow2_min k m (by rw [← hm]; exact le_trans hkh (le_nextPow2 h))
    omega
  have hKk := le_nextPow2 k
  have hnh := le_nextPow2 h
  have hcc := le_nextPow2 c
  have hoo := le_nextPow2 o
  -- the padded layer
  obtain ⟨fd, f1, f2, f3⟩ := padNextPow2_spec filter 0 (by rw [hfs]; simp) (by rw [hfs]; simp; omega) (by rw [hfl, hfs]; simp)
  obtain ⟨bd, b1, b2, b3⟩ := padNextPow2_spec bias 0 (by rw [hbs]; simp) (by rw [hbs]; simp; omega) (by rw [hbl, hbs]; simp)
  have hmapf : filter.shape.map nextPow2 = [nextPow2 o, nextPow2 c, nextPow2 k, nextPow2 k] := by rw [hfs]; rfl
  have hmapb : bias.shape.map nextPow2 = [nextPow2 o] := by rw [hbs]; rfl
  rw [hmapf] at f1 f2 f3
  rw [hmapb] at b1 b2 b3
  have hf2 : fd.length = nextPow2 o * nextPow2 c * nextPow2 k * nextPow2 k := by rw [f2]; simp; ring
  have hlayer : intoPaddedAndFfted filter bias [c, h, h]
      = some ⟨⟨[nextPow2 o, nextPow2 c, 2 ^ m, 2 ^ m], [nextPow2 o, nextPow2 c, nextPow2 k, nextPow2 k], fd⟩, bd, filter.shape⟩ := by
    unfold intoPaddedAndFfted
    simp only [f1, b1, Option.bind_eq_bind, Option.bind_some, intoFftConv]
    rw [if_pos ⟨by rw [f2], by rw [he]; exact nextPow2_pow e⟩]
    simp only [List.map_cons, List.getElem?_cons_succ, List.getElem?_cons_zero, Option.bind_some]
    rw [checkedSub, if_pos hKn]
    simp only [Option.bind_some]
    have := frame_size m e (by rw [← he, ← hm]; exact hfit)
    rw [← hm, ← he] at this
    rw [this, hm]
  -- padded kernel entries
  have hker : ∀ i j r s, i < nextPow2 o → j < nextPow2 c → r < nextPow2 k → s < nextPow2 k →
      fd.getD (((i * nextPow2 c + j) * nextPow2 k + r) * nextPow2 k + s) 0
        = if i < o ∧ j < c ∧ r < k ∧ s < k then filter.data.getD (flat [o, c, k, k] [i, j, r, s]) 0 else 0 := by
    intro i j r s hi hj hr hs
    have := f3 [i, j, r, s] (by simp [inRange_cons_cons, inRange_nil, hi, hj, hr, hs])
    rw [flat_four] at this
    rw [show ((i * nextPow2 c + j) * nextPow2 k + r) * nextPow2 k + s
      = i * (nextPow2 c * (nextPow2 k * nextPow2 k)) + (j * (nextPow2 k * nextPow2 k) + (r * nextPow2 k + s)) by ring, this, hfs]
    simp only [inRange_cons_cons, inRange_nil, and_true]
  have hbias : ∀ i, i < o → bd.getD i 0 = bias.data.getD i 0 := by
    intro i hi
    have := b3 [i] (by simp [inRange_cons_cons, inRange_nil]; omega)
    rw [hbs] at this
    simpa [flat, inRange_cons_cons, inRange_nil, hi] using this
  -- the transform
  rw [hm] at hxps hxpl
  obtain ⟨od, o1, o2, o3⟩ := fftConv_spec A g hg (toField p) toElement m hmA
    ⟨[nextPow2 o, nextPow2 c, 2 ^ m, 2 ^ m], [nextPow2 o, nextPow2 c, nextPow2 k, nextPow2 k], fd⟩ xp (nextPow2 c) (nextPow2 o) (nextPow2 c) (nextPow2 k)
    hxps hxpl rfl rfl hf2 (le_refl _) (by omega)
  obtain ⟨ad, a1, a2, a3⟩ := addBias_spec bd (nextPow2 o) (2 ^ m) od o2 (by rw [b2]; simp)
  obtain ⟨cd, c1, c2, c3⟩ := clearGarbage_spec (nextPow2 o) (2 ^ m) (2 ^ m) o (h - k + 1) (h - k + 1) ad a2
  obtain ⟨rd, r1, r2, r3⟩ := conv2d_spec x filter bias 1 c h h o k k 1 (by rw [hxs]; rfl) (by rw [hxs]; simp) (by rw [hxl, one_mul]) hfs hfl hbs hbl
    hkh hkh (by omega)
  rw [Nat.div_one] at r1 r2 r3
  have hop : Conv.op A g (toField p) toElement
      ⟨⟨[nextPow2 o, nextPow2 c, 2 ^ m, 2 ^ m], [nextPow2 o, nextPow2 c, nextPow2 k, nextPow2 k], fd⟩, bd, filter.shape⟩ xp [c, h, h]
      = some ⟨[nextPow2 o, 2 ^ m, 2 ^ m], cd⟩ := by
    unfold Conv.op
    have hshape : conv2dShape [c, h, h] filter.shape = some [o, h - k + 1, h - k + 1] := by
      rw [hfs]
      simp only [conv2dShape, List.length_cons, List.length_nil, if_true, List.getElem?_cons_succ, List.getElem?_cons_zero, Option.bind_eq_bind,
        Option.bind_some, checkedSub]
      rw [if_pos (by omega), Option.bind_some, if_pos (by omega), Option.bind_some, if_pos (by omega)]
      simp only [Option.bind_some]
      rw [show h - (k - 1) - 1 + 1 = h - k + 1 by omega]
    simp only [o1, Option.bind_eq_bind, Option.bind_some, a1, hshape, c1]
  rw [hm]
  refine ⟨_, _, _, hlayer, hop, r1, rfl, rfl, c2, ?_⟩
  intro i r s hi hr hs
  simp only
  rw [flat_three, c3 i r s hi hr hs]
  by_cases hin : i < o ∧ r < h - k + 1 ∧ s < h - k + 1
  · rw [if_pos hin, if_pos hin]
    obtain ⟨hio, hrr, hss⟩ := hin
    have hy : r * 2 ^ m + s < 2 ^ m * 2 ^ m := mul_add_lt hr hs
    rw [a3 i _ hi hy, o3 i _ hi hy, hbias i hio]
    have := r3 0 i r s (by omega) hio hrr hss
    rw [this]
    congr 1
    -- the sum over the padded kernel
    have hsum : (∑ j ∈ Finset.range (nextPow2 c), ∑ a ∈ Finset.range (nextPow2 k), ∑ b ∈ Finset.range (nextPow2 k),
        (toField p (fd.getD (((i * nextPow2 c + j) * nextPow2 k + a) * nextPow2 k + b) 0) : ZMod p)
          * (if r * 2 ^ m + s + (a * 2 ^ m + b) < 2 ^ m * 2 ^ m then
              toField p (xp.data.getD (j * (2 ^ m * 2 ^ m) + (r * 2 ^ m + s + (a * 2 ^ m + b))) 0) else 0))
        = ((convSum c k k 1 (fun o' j a b => filter.data.getD (flat [o, c, k, k] [o', j, a, b]) 0)
      (fun j a b => x.data.getD (flat [c, h, h] [j, a, b]) 0) i r s : ℤ) : ZMod p) := by
      have hzero : (toField p 0 : ZMod p) = 0 := by simp [toField]
      unfold convSum
      push_cast
      rw [← sum_range_le c (nextPow2 c) _ hcc]
      apply Finset.sum_congr rfl
      intro j hj
      rw [Finset.mem_range] at hj
      by_cases hjc : j < c
      · rw [if_pos hjc, ← sum_range_le k (nextPow2 k) _ hKk]
        apply Finset.sum_congr rfl
        intro a ha
        rw [Finset.mem_range] at ha
        by_cases hak : a < k
        · rw [if_pos hak, ← sum_range_le k (nextPow2 k) _ hKk]
          apply Finset.sum_congr rfl
          intro b hb
          rw [Finset.mem_range] at hb
          rw [hker i j a b hi hj ha hb]
          by_cases hbk : b < k
          · rw [if_pos ⟨hio, hjc, hak, hbk⟩, if_pos hbk]
            have hra : r + a < h := by omega
            have hsb : s + b < h := by omega
            have hpos : r * 2 ^ m + s + (a * 2 ^ m + b) = (r + a) * 2 ^ m + (s + b) := by ring
            have hlt : (r + a) * 2 ^ m + (s + b) < 2 ^ m * 2 ^ m := mul_add_lt (by omega) (by omega)
            have hag := hagree j (r + a) (s + b) hjc hra hsb
            rw [hxps, hxs, flat_three] at hag
            rw [hpos, if_pos hlt, hag, mul_one, mul_one]
            have hb1 : (x.data.getD (flat [c, h, h] [j, r + a, s + b]) 0).natAbs ≤ p := by
              apply hxb
              rw [List.getD_eq_getElem _ _ (by rw [hxl, flat_three]; exact mul_add_lt hjc (mul_add_lt hra hsb))]
              exact List.getElem_mem _
            have hb2 : (filter.data.getD (flat [o, c, k, k] [i, j, a, b]) 0).natAbs ≤ p := by
              apply hfb
              rw [List.getD_eq_getElem _ _ (by rw [hfl, flat_four]; exact mul_add_lt hio (mul_add_lt hjc (mul_add_lt hak hbk)))]
              exact List.getElem_mem _
            rw [toField_eq_cast p _ hb1, toField_eq_cast p _ hb2, mul_comm]
          · rw [if_neg (fun hh => hbk hh.2.2.2), if_neg hbk, hzero, zero_mul]
        · rw [if_neg hak]
          apply Finset.sum_eq_zero
          intro b hb
          rw [Finset.mem_range] at hb
          rw [hker i j a b hi hj ha hb, if_neg (fun hh => hak hh.2.2.1), hzero, zero_mul]
      · rw [if_neg hjc]
        apply Finset.sum_eq_zero
        intro a ha
        apply Finset.sum_eq_zero
        intro b hb
        rw [Finset.mem_range] at ha hb
        rw [hker i j a b hi hj ha hb, if_neg (fun hh => hjc hh.2.1), hzero, zero_mul]
    rw [hsum, toElement_cast p _ (hbound i r s hio (by omega) (by omega))]
    unfold convSum
    apply Finset.sum_congr rfl
    intro j _
    apply Finset.sum_congr rfl
    intro a _
    apply Finset.sum_congr rfl
    intro b _
    congr 1
    beta_reduce
    rw [flat_three, flat_four, zero_mul, zero_add]
  · rw [if_neg hin, if_neg hin]

/-- C32 is false in general: if the padded kernel has the size of the padded input (and this is more than one), the layer panics on
every input of that size. -/
theorem C32_large_kernel_panics (p : ℕ) [Fact p.Prime] (A : ℕ) (g : ZMod p) (toF : ℤ → ZMod p) (toE : ZMod p → ℤ) (filter bias xp : Tensor ℤ)
    (c h o k : ℕ) (hfs : filter.shape = [o, c, k, k]) (ho : 0 < o) (hbig : nextPow2 k = nextPow2 h) (hone : 1 < nextPow2 h)
    (hxps : xp.shape[1]? = some (nextPow2 h)) (layer : Conv) (hl : intoPaddedAndFfted filter bias [c, h, h] = some layer) :
    layer.op A g toF toE xp [c, h, h] = none := by
  obtain ⟨nw, hs, hnw⟩ := intoPadded_shape filter bias o c k hfs [c, h, h] h rfl layer hl
  obtain ⟨m, hm⟩ : ∃ m, nextPow2 h = 2 ^ m := ⟨_, rfl⟩
  have h1 : nw = 2 ^ 0 := by
    rw [hnw, hbig, Nat.sub_self]; rfl
  have h2 : 1 ≤ m := by
    rcases Nat.eq_zero_or_pos m with h | h
    · rw [hm, h] at hone; omega
    · exact h
  unfold Conv.op
  rw [fftConv_small_frame A g toF toE layer.filter xp (nextPow2 o) 0 m h2 (nextPow2_pos o) (by rw [hs]; rfl) (by rw [hs, h1]; rfl)
    (by rw [hxps, hm])]
  rfl

/-- C65, where it holds: as long as the output is larger than half of the padded input, padding the layer gives the layer of C32. -/
theorem C65_same_layer_partial (filter bias : Tensor ℤ) (c h o k cp : ℕ) (hfs : filter.shape = [o, c, k, k]) (hbs : bias.shape = [o])
    (hk : 0 < k) (hkh : k ≤ h) (hlarge : nextPow2 (h - k + 1) = nextPow2 h) (hcp : nextPow2 cp = cp) :
    (padConv filter bias [c, h, h] [cp, nextPow2 h, nextPow2 h]).map (fun r => r.1) = intoPaddedAndFfted filter bias [c, h, h] := by
  have hKn : nextPow2 k ≤ nextPow2 h := by
    obtain ⟨m, hm⟩ : ∃ m, nextPow2 h = 2 ^ m := ⟨_, rfl⟩
    have := nextPow2_min k m (by rw [← hm]; exact le_trans hkh (le_nextPow2 h))
    omega
  have hnn : nextPow2 (nextPow2 h) = nextPow2 h := nextPow2_pow _
  have hKK : nextPow2 (nextPow2 k) = nextPow2 k := nextPow2_pow _
  have hshape : conv2dShape [c, h, h] filter.shape = some [o, h - k + 1, h - k + 1] := by
    rw [hfs]
    simp only [conv2dShape, List.length_cons, List.length_nil, if_true, List.getElem?_cons_succ, List.getElem?_cons_zero, Option.bind_eq_bind,
      Option.bind_some, checkedSub]
    rw [if_pos (by omega), Option.bind_some, if_pos (by omega), Option.bind_some, if_pos (by omega)]
    simp only [Option.bind_some]
    rw [show h - (k - 1) - 1 + 1 = h - k + 1 by omega]
  have hKpos := nextPow2_pos k
  have hshape2 : conv2dShape [cp, nextPow2 h, nextPow2 h] (filter.shape.map nextPow2)
      = some [nextPow2 o, nextPow2 h - nextPow2 k + 1, nextPow2 h - nextPow2 k + 1] := by
    rw [hfs]
    simp only [conv2dShape, List.map_cons, List.map_nil, List.length_cons, List.length_nil, if_true, List.getElem?_cons_succ, List.getElem?_cons_zero, Option.bind_eq_bind,
      Option.bind_some, checkedSub]
    rw [if_pos (by omega), Option.bind_some, if_pos (by omega), Option.bind_some, if_pos (by omega)]
    simp only [Option.bind_some]
    rw [show nextPow2 h - (nextPow2 k - 1) - 1 + 1 = nextPow2 h - nextPow2 k + 1 by omega]
  unfold padConv
  rw [if_pos (by rw [hfs, hbs]; simp [hnn, hKn, hcp])]
  simp only [hshape, hshape2, Option.bind_eq_bind, Option.bind_some]
  have : intoPaddedAndFfted filter bias [o, h - k + 1, h - k + 1] = intoPaddedAndFfted filter bias [c, h, h] := by
    unfold intoPaddedAndFfted
    simp only [List.map_cons, List.map_nil, hlarge, intoFftConv, List.getElem?_cons_succ, List.getElem?_cons_zero]
  rw [this]
  cases intoPaddedAndFfted filter bias [c, h, h] <;> rfl

/-- C65 is false: padding computes the frame from the shape of the output. Whenever this frame is smaller than the padded input, the
padded layer panics on every padded input. -/
theorem C65_small_frame_panics (p : ℕ) [Fact p.Prime] (A : ℕ) (g : ZMod p) (toF : ℤ → ZMod p) (toE : ZMod p → ℤ) (filter bias xp : Tensor ℤ)
    (c h o k cp : ℕ) (hfs : filter.shape = [o, c, k, k]) (ho : 0 < o)
    (hsmall : nextPow2 (nextPow2 (h - k + 1) - nextPow2 k + 1) < nextPow2 h) (hxps : xp.shape[1]? = some (nextPow2 h))
    (layer : Conv) (og out : List ℕ) (hl : padConv filter bias [c, h, h] [cp, nextPow2 h, nextPow2 h] = some (layer, og, out)) :
    layer.op A g toF toE xp [c, h, h] = none := by
  unfold padConv at hl
  split at hl
  swap
  · cases hl
  simp only [Option.bind_eq_bind, Option.bind_eq_some_iff] at hl
  obtain ⟨og', hog, layer', hlayer, out', _, heq⟩ := hl
  simp only [Option.some.injEq, Prod.mk.injEq] at heq
  obtain ⟨rfl, rfl, _⟩ := heq
  have hshape : ∃ d, og' = [o, h - k + 1, d] := by
    rw [hfs] at hog
    simp only [conv2dShape, List.length_cons, List.length_nil, if_true, List.getElem?_cons_succ, List.getElem?_cons_zero, Option.bind_eq_bind,
      Option.bind_some, checkedSub, Option.bind_eq_some_iff] at hog
    obtain ⟨a, h1, b, h2, d, h3, h4⟩ := hog
    split at h1 <;> simp only [Option.some.injEq, reduceCtorEq] at h1
    subst h1
    split at h2 <;> simp only [Option.some.injEq, reduceCtorEq] at h2
    subst h2
    split at h3 <;> simp only [Option.some.injEq, reduceCtorEq] at h3
    simp only [Option.some.injEq] at h4
    exact ⟨h - k + 1, by rw [← h4, show d + 1 = h - k + 1 by omega]⟩
  obtain ⟨d, rfl⟩ := hshape
  obtain ⟨nw, hs, hnw⟩ := intoPadded_shape filter bias o c k hfs _ (h - k + 1) rfl layer' hlayer
  obtain ⟨m, hm⟩ : ∃ m, nextPow2 h = 2 ^ m := ⟨_, rfl⟩
  obtain ⟨e, he⟩ : ∃ e, nw = 2 ^ e := by rw [hnw]; exact ⟨_, rfl⟩
  have hem : e < m := by
    rw [← hnw, he, hm] at hsmall
    exact (Nat.pow_lt_pow_iff_right (by omega)).1 hsmall
  unfold Conv.op
  rw [fftConv_small_frame A g toF toE layer'.filter xp (nextPow2 o) e m hem (nextPow2_pos o) (by rw [hs]; rfl) (by rw [hs, he]; rfl)
    (by rw [hxps, hm])]
  rfl

instance fact97 : Fact (Nat.Prime 97) := ⟨by decide +kernel⟩

/-- A concrete case of C32: a 3×3 input with one channel, two 2×2 kernels, the field with 97 elements; garbage 40 in the padding. -/
example :
    let x : Tensor ℤ := ⟨[1, 3, 3], [1, -2, 3, 0, 1, 4, -1, 2, 2]⟩
    let xp : Tensor ℤ := ⟨[1, 4, 4], [1, -2, 3, 40, 0, 1, 4, 40, -1, 2, 2, 40, 40, 40, 40, 40]⟩
    let filter : Tensor ℤ := ⟨[2, 1, 2, 2], [1, 0, -1, 2, 3, 1, 0, 1]⟩
    let bias : Tensor ℤ := ⟨[2], [5, -1]⟩
    IsPrimitiveRoot (28 : ZMod 97) (2 ^ 5) ∧ 2 * (nextPow2 3 * nextPow2 3) ≤ 2 ^ 5 ∧ nextPow2 2 < nextPow2 3 ∧
      conv2d x filter bias 1 = some ⟨[1, 2, 2, 2], [8, 10, 10, 8, 1, 0, 2, 8]⟩ ∧
      (intoPaddedAndFfted filter bias [1, 3, 3]).bind (fun l => l.op 5 (28 : ZMod 97) (toField 97) toElement xp [1, 3, 3])
        = some ⟨[2, 4, 4], [8, 10, 0, 0, 10, 8, 0, 0, 0, 0, 0, 0, 0, 0, 0, 0, 1, 0, 0, 0, 2, 8, 0, 0, 0, 0, 0, 0, 0, 0, 0, 0]⟩ := by
  refine ⟨?_, ?_, ?_, ?_, ?_⟩
  · rw [IsPrimitiveRoot.iff (by norm_num)]
    refine ⟨by decide +kernel, ?_⟩
    intro l h0 h1
    interval_cases l <;> decide +kernel
  · decide +kernel
  · decide +kernel
  · decide +kernel
  · decide +kernel

/-- A concrete case of C65: a 5×5 input with a 3×3 kernel is padded without error, to a frame of size one. -/
example : (padConv ⟨[1, 1, 3, 3], [1, 2, 3, 4, 5, 6, 7, 8, 9]⟩ ⟨[1], [0]⟩ [1, 5, 5] [1, 8, 8]).map (fun r => (r.1.filter.shape, r.2))
    = some ([1, 1, 1, 1], [1, 3, 3], [1, 8, 8]) ∧ nextPow2 (nextPow2 (5 - 3 + 1) - nextPow2 3 + 1) < nextPow2 5 := by
  refine ⟨?_, ?_⟩ <;> decide +kernel

end Props
