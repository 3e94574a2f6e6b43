import Verif.Lemmas.LayerPad
import Verif.Lemmas.Conv
import Verif.Props.Mha

/-!
C85: padding a dense or a matrix multiplication layer keeps its result.
-/

namespace Props

open Model Spec Lemmas

theorem padMinimum_four (n : ℕ) : 4 ≤ padMinimum n := by
  obtain ⟨k, h1, h2, -⟩ := padMinimum_size n
  rw [h2]
  calc 4 = 2 ^ 2 := rfl
    _ ≤ 2 ^ k := Nat.pow_le_pow_right (by omega) h1

theorem denseNew {α : Type} (m n : ℕ) (hm : 0 < m) (w b : List α) : DenseLayer.new (⟨[m, n], w⟩ : Tensor α) ⟨[m], b⟩ = some ⟨⟨[m, n], w⟩, ⟨[m], b⟩, [m, n]⟩ := by
  unfold DenseLayer.new Tensor.nrows2d
  simp [show m ≠ 0 by omega]

/-- C85: a dense layer whose input is padded without garbage, to a shape of powers of two with at least four entries which begin with the entries of the input. Padding succeeds, the announced shapes
are right, and on every such input, whatever follows the entries, the padded layer computes the result of the layer, zeros added. -/
theorem C85_dense_partial {α : Type} [Semiring α] (m n k : ℕ) (hm : 0 < m) (hn : 0 < n) (hk : 2 ≤ k) (hnk : n ≤ 2 ^ k) (w b : List α) (hw : w.length = m * n) (hb : b.length = m)
    (og P : List ℕ) (hP : ∀ d ∈ P, ∃ e, d = 2 ^ e) (hPn : P.prod = 2 ^ k) :
    ∃ d m' d', DenseLayer.new (⟨[m, n], w⟩ : Tensor α) ⟨[m], b⟩ = some d ∧ PadSize m m' ∧ padDense d [⟨og, P, none⟩] = some (d', [⟨[m], [m'], none⟩]) ∧
      ∀ (s : List ℕ) (x x' : List α), (s.length = 1 → s = [n]) → x.length = n → x'.length = 2 ^ k → (∀ j < n, x'.getD j 0 = x.getD j 0) →
        ∃ y y', d.evaluate ⟨s, x⟩ = some ⟨[m], y⟩ ∧ y.length = m ∧ d'.evaluate ⟨P, x'⟩ = some ⟨[m'], y'⟩ ∧ y'.length = m' ∧
          (∀ i < m, y.getD i 0 = ∑ j ∈ Finset.range n, cell n w i j * x.getD j 0 + b.getD i 0) ∧
          ∀ i < m', y'.getD i 0 = if i < m then y.getD i 0 else 0 := by
  have hk0 : 0 < 2 ^ k := Nat.two_pow_pos k
  obtain ⟨w', f1, f2, f3⟩ := fitMatrix_spec m n (padMinimum m) (2 ^ k) w hm hn hw (padMinimum_ge m).1 hnk
  refine ⟨⟨⟨[m, n], w⟩, ⟨[m], b⟩, [m, n]⟩, padMinimum m, ⟨⟨[padMinimum m, 2 ^ k], w'⟩, ⟨[padMinimum m], resize (padMinimum m) 0 b⟩, [m, n]⟩, denseNew m n hm w b, padMinimum_size m, ?_, ?_⟩
  · refine padDense_of m n (2 ^ k) hm hn hnk w b hb _ og P none ?_ hPn _ ?_
    · intro d hd
      obtain ⟨e, rfl⟩ := hP d hd
      exact nextPow2_pow e
    · rw [padMinimum_pow k hk]
      exact f1
  · intro s x x' hs hx hx' hag
    refine densePadded m n (padMinimum m) (2 ^ k) hn hk0 w b x w' x' _ _ s P hw hb hx hs f2 hx' ?_ ?_
    · intro h
      obtain ⟨a, rfl⟩ := List.length_eq_one_iff.1 h
      simpa using hPn
    · intro i hi
      have : ∀ j ∈ Finset.range (2 ^ k), w'.getD (i * 2 ^ k + j) 0 * x'.getD j 0 = if j < n then (if i < m then w.getD (i * n + j) 0 * x.getD j 0 else 0) else 0 := by
        intro j hj
        rw [f3 i j hi (Finset.mem_range.1 hj)]
        by_cases h1 : j < n <;> by_cases h2 : i < m
        · rw [if_pos ⟨h2, h1⟩, if_pos h1, if_pos h2, hag j h1]
        · rw [if_neg (by omega), if_pos h1, if_neg h2, zero_mul]
        · rw [if_neg (by omega), if_neg h1, zero_mul]
        · rw [if_neg (by omega), if_neg h1, zero_mul]
      rw [Finset.sum_congr rfl this, ← Finset.sum_filter]
      have hf : (Finset.range (2 ^ k)).filter (· < n) = Finset.range n := by
        ext j
        simp only [Finset.mem_filter, Finset.mem_range]
        omega
      rw [hf]
      by_cases h2 : i < m
      · simp only [if_pos h2]
      · simp only [if_neg h2, Finset.sum_const_zero]

/-- C85: a dense layer after a convolution. The padded layer ignores everything outside the c×h×w entries of the padded cp×hp×wp input, and computes the result of the layer, zeros added. -/
theorem C85_dense_garbage_partial {α : Type} [Semiring α] (m c h w k ec eh ew : ℕ) (hm : 0 < m) (hpos : 0 < c * (h * w)) (hc : c ≤ 2 ^ ec) (hh : h ≤ 2 ^ eh) (hw : w ≤ 2 ^ ew) (hk : 2 ≤ k)
    (hkk : k = ec + (eh + ew)) (a b : List α) (ha : a.length = m * (c * (h * w))) (hb : b.length = m) (og P : List ℕ)
    (hP : ∀ d ∈ P, ∃ e, d = 2 ^ e) (hPn : P.prod = 2 ^ k) :
    ∃ d m' d', DenseLayer.new (⟨[m, c * (h * w)], a⟩ : Tensor α) ⟨[m], b⟩ = some d ∧ PadSize m m' ∧
      padDense d [⟨og, P, some (.conv [c, h, w] [2 ^ ec, 2 ^ eh, 2 ^ ew])⟩] = some (d', [⟨[m], [m'], none⟩]) ∧
      ∀ (s : List ℕ) (x x' : List α), (s.length = 1 → s = [c * (h * w)]) → x.length = c * (h * w) → x'.length = 2 ^ k →
        (∀ q, InRange [c, h, w] q → x'.getD (flat [2 ^ ec, 2 ^ eh, 2 ^ ew] q) 0 = x.getD (flat [c, h, w] q) 0) →
        ∃ y y', d.evaluate ⟨s, x⟩ = some ⟨[m], y⟩ ∧ y.length = m ∧ d'.evaluate ⟨[2 ^ k], x'⟩ = some ⟨[m'], y'⟩ ∧ y'.length = m' ∧
          (∀ i < m, y.getD i 0 = ∑ j ∈ Finset.range (c * (h * w)), cell (c * (h * w)) a i j * x.getD j 0 + b.getD i 0) ∧
          ∀ i < m', y'.getD i 0 = if i < m then y.getD i 0 else 0 := by
  have hprod : 2 ^ k = 2 ^ ec * (2 ^ eh * 2 ^ ew) := by rw [hkk, pow_add, pow_add]
  have hle : c * (h * w) ≤ 2 ^ k := by
    rw [hprod]
    exact Nat.mul_le_mul hc (Nat.mul_le_mul hh hw)
  have hk0 : 0 < 2 ^ k := Nat.two_pow_pos k
  -- the padded matrix exists
  obtain ⟨o, o', -, -, e1, -, -, -⟩ := C29_garbage (⟨[m, c * (h * w)], a⟩ : Tensor α) ⟨[c * (h * w)], List.replicate (c * (h * w)) 0⟩
    ⟨[2 ^ ec * (2 ^ eh * 2 ^ ew)], List.replicate (2 ^ ec * (2 ^ eh * 2 ^ ew)) 0⟩ m c h w (padMinimum m) (2 ^ ec) (2 ^ eh) (2 ^ ew) rfl ha rfl (by simp) rfl (by simp)
    (padMinimum_ge m).1 hc hh hw (by intro q _; simp [List.getD_replicate])
  obtain ⟨a2, ha2, -⟩ := Option.bind_eq_some_iff.1 e1
  have hshape : ∃ data, a2 = ⟨[padMinimum m, 2 ^ k], data⟩ ∧ data.length = padMinimum m * 2 ^ k := by
    unfold Tensor.padIgnoreGarbage at ha2
    simp only at ha2
    obtain ⟨data, hd, h2⟩ := Option.bind_eq_some_iff.1 ha2
    cases h2
    refine ⟨data, by rw [hprod], ?_⟩
    rw [mapM_length _ _ _ hd, List.length_range, hprod]
  obtain ⟨w', rfl, hwl⟩ := hshape
  refine ⟨⟨⟨[m, c * (h * w)], a⟩, ⟨[m], b⟩, [m, c * (h * w)]⟩, padMinimum m, ⟨⟨[padMinimum m, 2 ^ k], w'⟩, ⟨[padMinimum m], resize (padMinimum m) 0 b⟩, [m, c * (h * w)]⟩,
    denseNew m _ hm a b, padMinimum_size m, ?_, ?_⟩
  · refine padDense_of m (c * (h * w)) (2 ^ k) hm hpos hle a b hb _ og P _ ?_ hPn _ ?_
    · intro d hd
      obtain ⟨e, rfl⟩ := hP d hd
      exact nextPow2_pow e
    · rw [padMinimum_pow k hk, hprod]
      rw [hprod] at ha2
      exact ha2
  · intro s x x' hs hx hx' hag
    refine densePadded m (c * (h * w)) (padMinimum m) (2 ^ k) hpos hk0 a b x w' x' _ _ s [2 ^ k] ha hb hx hs hwl hx' (fun _ => rfl) ?_
    obtain ⟨z, z', g1, g2, g3, g4, g5, g6⟩ := C29_garbage (⟨[m, c * (h * w)], a⟩ : Tensor α) ⟨[c * (h * w)], x⟩ ⟨[2 ^ ec * (2 ^ eh * 2 ^ ew)], x'⟩ m c h w (padMinimum m) (2 ^ ec) (2 ^ eh) (2 ^ ew) rfl ha rfl hx rfl
      (by rw [← hprod]; exact hx') (padMinimum_ge m).1 hc hh hw hag
    rw [ha2, Option.bind_some] at g3
    obtain ⟨v, v1, v2, v3⟩ := matvec_spec (⟨[m, c * (h * w)], a⟩ : Tensor α) ⟨[c * (h * w)], x⟩ m _ rfl rfl ha hx
    obtain ⟨v', v1', v2', v3'⟩ := matvec_spec (⟨[padMinimum m, 2 ^ k], w'⟩ : Tensor α) ⟨[2 ^ k], x'⟩ (padMinimum m) _ rfl rfl hwl hx'
    rw [hprod] at v1'
    rw [hprod] at g3
    rw [v1] at g1
    rw [v1'] at g3
    obtain rfl : v = z := by simpa using g1
    obtain rfl : v' = z' := by simpa using g3
    intro i hi
    rw [← v3' i hi]
    by_cases him : i < m
    · rw [if_pos him, g5 i him, v3 i him]
    · rw [if_neg him, g6 i (by omega) hi]

theorem sum_indicator {α : Type} [Semiring α] (n b : ℕ) (hb : b < n) (f : ℕ → α) : ∑ j ∈ Finset.range n, ((List.range n).map fun j => if j = b then (1 : α) else 0).getD j 0 * f j = f b := by
  rw [Finset.sum_eq_single b]
  · rw [getD_map_range' _ _ _ _ hb, if_pos rfl, one_mul]
  · intro j hj hjb
    rw [getD_map_range' _ _ _ _ (Finset.mem_range.1 hj), if_neg hjb, zero_mul]
  · intro h
    exact absurd (Finset.mem_range.2 hb) h

/-- C85 fails for inputs with two dimensions that are not flattened before: whenever there are at least two rows and the number of columns is padded, some layer, once padded, computes something else. -/
theorem C85_dense_rows_false {α : Type} [Semiring α] [Nontrivial α] (a b ea eb : ℕ) (ha : 2 ≤ a) (hb : 0 < b) (hea : a ≤ 2 ^ ea) (heb : b < 2 ^ eb) :
    ∃ (w x x' y y' : List α) (d d' : DenseLayer α) (m' : ℕ), DenseLayer.new (⟨[1, a * b], w⟩ : Tensor α) ⟨[1], [0]⟩ = some d ∧
      padDense d [⟨[a, b], [2 ^ ea, 2 ^ eb], none⟩] = some (d', [⟨[1], [m'], none⟩]) ∧ x.length = a * b ∧ x'.length = 2 ^ ea * 2 ^ eb ∧
      (∀ i < 2 ^ ea, ∀ j < 2 ^ eb, cell (2 ^ eb) x' i j = if i < a ∧ j < b then cell b x i j else 0) ∧
      d.evaluate ⟨[a, b], x⟩ = some ⟨[1], y⟩ ∧ d'.evaluate ⟨[2 ^ ea, 2 ^ eb], x'⟩ = some ⟨[m'], y'⟩ ∧ y.getD 0 0 ≠ y'.getD 0 0 := by
  have hab : b < a * b := by nlinarith
  have hea1 : 1 ≤ ea := by
    by_contra h
    have : ea = 0 := by omega
    subst this
    simp at hea
    omega
  have heb1 : 1 ≤ eb := by
    by_contra h
    have : eb = 0 := by omega
    subst this
    simp at heb
    omega
  have hlt : 2 ^ eb < 2 ^ ea * 2 ^ eb := by
    have : 2 ^ 1 ≤ 2 ^ ea := Nat.pow_le_pow_right (n := 2) (by omega) hea1
    have := Nat.two_pow_pos eb
    nlinarith
  have hle : a * b ≤ 2 ^ (ea + eb) := by
    rw [pow_add]
    exact Nat.mul_le_mul hea heb.le
  obtain ⟨w, hw⟩ : ∃ w : List α, w = (List.range (a * b)).map fun j => if j = b then (1 : α) else 0 := ⟨_, rfl⟩
  obtain ⟨x', hx'⟩ : ∃ x' : List α, x' = (List.range (2 ^ ea * 2 ^ eb)).map fun j => if j = 2 ^ eb then (1 : α) else 0 := ⟨_, rfl⟩
  have hwl : w.length = a * b := by rw [hw]; simp
  have hxl : x'.length = 2 ^ ea * 2 ^ eb := by rw [hx']; simp
  obtain ⟨d, m', d', h1, h2, h3, h4⟩ := C85_dense_partial 1 (a * b) (ea + eb) (by omega) (by omega) (by omega) hle w [0] (by rw [hwl, one_mul]) rfl [a, b] [2 ^ ea, 2 ^ eb]
    (by intro d hd; simp only [List.mem_cons, List.not_mem_nil, or_false] at hd; rcases hd with rfl | rfl <;> exact ⟨_, rfl⟩) (by simp [pow_add])
  obtain ⟨y, -, e1, -, -, -, e2, -⟩ := h4 [a, b] w (resize (2 ^ (ea + eb)) 0 w) (by simp) hwl (length_resize _ _ _) (by intro j hj; rw [getD_resize, if_pos (by omega)])
  obtain ⟨z, y', -, -, f1, -, f2, f3⟩ := h4 [a * b] (x'.take (a * b)) x' (by simp) (by rw [List.length_take, hxl, ← pow_add]; omega) (by rw [hxl, pow_add])
    (by intro j hj; rw [getD_take _ _ _ _ hj])
  refine ⟨w, w, x', y, y', d, d', m', h1, h3, hwl, hxl, ?_, e1, f1, ?_⟩
  · intro i hi j hj
    rw [cell, hx', getD_map_range' _ _ _ _ (mul_add_lt hi hj)]
    have hbit : i * 2 ^ eb + j = 2 ^ eb ↔ i = 1 ∧ j = 0 := by
      constructor
      · intro h
        have hq : (i * 2 ^ eb + j) / 2 ^ eb = i := mul_add_div' hj
        rw [h, Nat.div_self (Nat.two_pow_pos eb)] at hq
        subst hq
        omega
      · rintro ⟨rfl, rfl⟩
        omega
    by_cases h : i < a ∧ j < b
    · rw [if_pos h, cell, hw, getD_map_range' _ _ _ _ (mul_add_lt h.1 h.2)]
      have hbb : i * b + j = b ↔ i = 1 ∧ j = 0 := by
        constructor
        · intro hq0
          have hq : (i * b + j) / b = i := mul_add_div' h.2
          rw [hq0, Nat.div_self hb] at hq
          subst hq
          omega
        · rintro ⟨rfl, rfl⟩
          omega
      simp only [hbit, hbb]
    · rw [if_neg h, if_neg]
      rw [hbit]
      omega
  · have hm' : 0 < m' := by
      obtain ⟨k, -, rfl, -⟩ := h2
      exact Nat.two_pow_pos k
    rw [f3 0 hm', if_pos (by omega), e2 0 (by omega), f2 0 (by omega)]
    simp only [cell, zero_mul, zero_add]
    rw [hw, sum_indicator (a * b) b hab, sum_indicator (a * b) b hab, getD_map_range' _ _ _ _ hab, if_pos rfl, getD_take _ _ _ _ hab, hx',
      getD_map_range' _ _ _ _ (by omega), if_neg (by omega)]
    simp

/-- C85 fails for inputs of one or two entries: the padded layer has four columns and rejects the padded input, although the layer accepts the input. -/
theorem C85_dense_small_false {α : Type} [Semiring α] (m n e : ℕ) (hm : 0 < m) (hn : 0 < n) (he : e ≤ 1) (hne : n ≤ 2 ^ e) (w b : List α) (hw : w.length = m * n) (hb : b.length = m) (og : List ℕ) :
    ∃ d m' d', DenseLayer.new (⟨[m, n], w⟩ : Tensor α) ⟨[m], b⟩ = some d ∧ padDense d [⟨og, [2 ^ e], none⟩] = some (d', [⟨[m], [m'], none⟩]) ∧
      (∀ x, x.length = n → (d.evaluate ⟨[n], x⟩).isSome) ∧ ∀ x', d'.evaluate ⟨[2 ^ e], x'⟩ = none := by
  have h4 : padMinimum (2 ^ e) = 4 := by
    unfold padMinimum
    simp only
    rw [nextPow2_pow, if_pos]
    calc 2 ^ e ≤ 2 ^ 1 := Nat.pow_le_pow_right (n := 2) (by omega) he
      _ < 4 := by omega
  have hlt : 2 ^ e < 4 := by
    calc 2 ^ e ≤ 2 ^ 1 := Nat.pow_le_pow_right (n := 2) (by omega) he
      _ < 4 := by omega
  obtain ⟨w', f1, f2, -⟩ := fitMatrix_spec m n (padMinimum m) 4 w hm hn hw (padMinimum_ge m).1 (by omega)
  refine ⟨⟨⟨[m, n], w⟩, ⟨[m], b⟩, [m, n]⟩, padMinimum m, ⟨⟨[padMinimum m, 4], w'⟩, ⟨[padMinimum m], resize (padMinimum m) 0 b⟩, [m, n]⟩, denseNew m n hm w b, ?_, ?_, ?_⟩
  · refine padDense_of m n (2 ^ e) hm hn hne w b hb _ og [2 ^ e] none ?_ (by simp) _ ?_
    · intro d hd
      simp only [List.mem_singleton] at hd
      rw [hd, nextPow2_pow]
    · rw [h4]
      exact f1
  · intro x hx
    obtain ⟨y, h1, -⟩ := denseEval_spec m n hn w b x [m, n] [n] hw hb hx (fun _ => rfl)
    rw [h1]
    rfl
  · intro x'
    unfold DenseLayer.evaluate Tensor.matvec
    simp only [List.length_singleton, ne_eq, not_true_eq_false, if_false, List.head?_cons, Option.some.injEq]
    rw [if_neg (by omega)]
    rfl

/-- C85: the shape announced for the padded output of a dense layer with at least three outputs, on an input padded to the least power of two, is that of the padded layer. -/
theorem C85_dense_shape_partial {α : Type} [Zero α] (m n k : ℕ) (hm : 3 ≤ m) (hn : 0 < n) (hk : 2 ≤ k) (hnk : n ≤ 2 ^ k) (hmin : 2 ^ (k - 1) < n) (w b : List α) (hw : w.length = m * n) (hb : b.length = m) (og : List ℕ) :
    ∃ d m' d', DenseLayer.new (⟨[m, n], w⟩ : Tensor α) ⟨[m], b⟩ = some d ∧ padDense d [⟨og, [2 ^ k], none⟩] = some (d', [⟨[m], [m'], none⟩]) ∧
      d'.outputShape [2 ^ k] true = some [m'] ∧ d'.outputShape [n] false = some [m] := by
  obtain ⟨w', f1, -, -⟩ := fitMatrix_spec m n (padMinimum m) (2 ^ k) w (by omega) hn hw (padMinimum_ge m).1 hnk
  have hnp : nextPow2 n = 2 ^ k := by
    apply le_antisymm (nextPow2_min n k hnk)
    by_contra h
    have hlt : Nat.clog 2 n < k := (Nat.pow_lt_pow_iff_right (a := 2) (by omega)).1 (Nat.not_le.1 h)
    have : nextPow2 n ≤ 2 ^ (k - 1) := Nat.pow_le_pow_right (n := 2) (by omega) (by omega)
    have := le_nextPow2 n
    omega
  have hmp : nextPow2 m = padMinimum m := by
    unfold padMinimum
    simp only
    rw [if_neg]
    intro h
    have h2 : Nat.clog 2 m < 2 := (Nat.pow_lt_pow_iff_right (a := 2) (by omega)).1 (by exact h)
    have h3 : nextPow2 m ≤ 2 ^ 1 := Nat.pow_le_pow_right (n := 2) (by omega) (by omega)
    have := le_nextPow2 m
    omega
  refine ⟨⟨⟨[m, n], w⟩, ⟨[m], b⟩, [m, n]⟩, padMinimum m, ⟨⟨[padMinimum m, 2 ^ k], w'⟩, ⟨[padMinimum m], resize (padMinimum m) 0 b⟩, [m, n]⟩, denseNew m n (by omega) w b, ?_, ?_, ?_⟩
  · refine padDense_of m n (2 ^ k) (by omega) hn hnk w b hb _ og [2 ^ k] none ?_ (by simp) _ ?_
    · intro d hd
      simp only [List.mem_singleton] at hd
      rw [hd, nextPow2_pow]
    · rw [padMinimum_pow k hk]
      exact f1
  · simp [DenseLayer.outputShape, hnp, hmp]
  · simp [DenseLayer.outputShape]

/-- C85: the announced shape is wrong for one or two outputs, the padded layer has four. -/
theorem C85_dense_shape_false {α : Type} [Semiring α] (m n k : ℕ) (hm : 0 < m) (hm2 : m ≤ 2) (hn : 0 < n) (hk : 2 ≤ k) (hnk : n = 2 ^ k) (w b : List α) (hw : w.length = m * n) (hb : b.length = m) (og : List ℕ) :
    ∃ d d', DenseLayer.new (⟨[m, n], w⟩ : Tensor α) ⟨[m], b⟩ = some d ∧ padDense d [⟨og, [2 ^ k], none⟩] = some (d', [⟨[m], [4], none⟩]) ∧
      d'.outputShape [2 ^ k] true = some [m] ∧ ∀ x', x'.length = 2 ^ k → ∃ y', d'.evaluate ⟨[2 ^ k], x'⟩ = some ⟨[4], y'⟩ := by
  obtain ⟨d, m', d', h1, h2, h3, h4⟩ := C85_dense_partial m n k hm hn hk hnk.le w b hw hb og [2 ^ k] (by intro d hd; simp only [List.mem_singleton] at hd; exact ⟨k, hd⟩) (by simp)
  have hm4 : m' = 4 := by
    obtain ⟨e, e1, e2, -, e3 | e3⟩ := h2
    · rw [e2, e3]; rfl
    · have : 2 ^ 1 ≤ 2 ^ (e - 1) := Nat.pow_le_pow_right (n := 2) (by omega) (by omega)
      omega
  subst hm4
  have hd : d = ⟨⟨[m, n], w⟩, ⟨[m], b⟩, [m, n]⟩ := by
    rw [denseNew m n hm w b] at h1
    exact (Option.some.inj h1).symm
  have hu : d'.unpadded = [m, n] := by
    subst hd
    unfold padDense at h3
    simp only at h3
    split at h3
    · obtain ⟨_, -, h3⟩ := Option.bind_eq_some_iff.1 h3
      obtain ⟨_, -, h3⟩ := Option.bind_eq_some_iff.1 h3
      obtain ⟨_, -, h3⟩ := Option.bind_eq_some_iff.1 h3
      split at h3
      · obtain ⟨_, -, h3⟩ := Option.bind_eq_some_iff.1 h3
        obtain ⟨_, -, h3⟩ := Option.bind_eq_some_iff.1 h3
        simp only [Option.some.injEq, Prod.mk.injEq] at h3
        rw [← h3.1]
      · simp at h3
    · simp at h3
  refine ⟨d, d', h1, h3, ?_, ?_⟩
  · have hmm : nextPow2 m = m := by
      obtain rfl | rfl : m = 1 ∨ m = 2 := by omega
      · exact nextPow2_pow 0
      · exact nextPow2_pow 1
    simp [DenseLayer.outputShape, hu, hmm, hnk, nextPow2_pow]
  · intro x' hx'
    obtain ⟨_, y', -, -, g, -⟩ := h4 [n] x' x' (fun _ => rfl) (by rw [hx', hnk]) hx' (fun _ _ => rfl)
    exact ⟨y', g⟩

/-! ### Matrix multiplication -/

theorem matmulNew_right {α : Type} (k n : ℕ) (hk : 0 < k) (w : List α) (bias : Option (List α)) (tr : Bool) :
    MatMulLayer.new none (some (⟨[k, n], w⟩ : Tensor α)) (bias.map fun b => ⟨[n], b⟩) tr = some ⟨.input, .weight ⟨[k, n], w⟩ [k, n], bias.map fun b => ⟨[n], b⟩, tr⟩ := by
  have hr : (⟨[k, n], w⟩ : Tensor α).nrows2d = some k := by
    unfold Tensor.nrows2d
    simp only [show k ≠ 0 by omega, if_false]
  unfold MatMulLayer.new
  simp only
  rw [if_pos]
  rw [hr]
  refine ⟨rfl, rfl, ?_⟩
  cases bias <;> simp [matmulBiasOk]

theorem matmulNew_left {α : Type} (m k p : ℕ) (hk : 0 < k) (w : List α) (bias : Option (List α)) (tr : Bool) :
    MatMulLayer.new (some (⟨[m, k], w⟩ : Tensor α)) none (bias.map fun b => ⟨[p], b⟩) tr = some ⟨.weight ⟨[m, k], w⟩ [m, k], .input, bias.map fun b => ⟨[p], b⟩, tr⟩ := by
  have hr : (⟨[m, k], w⟩ : Tensor α).ncols2d = some k := by
    unfold Tensor.ncols2d
    simp only [show k ≠ 0 by omega, if_false]
  unfold MatMulLayer.new
  simp only
  rw [if_pos]
  rw [hr]
  refine ⟨rfl, rfl, ?_⟩
  cases bias <;> simp [matmulBiasOk]

theorem sum_range_cut {α : Type} [AddCommMonoid α] (k k' : ℕ) (hk : k ≤ k') (f g : ℕ → α) (h : ∀ l < k, f l = g l) (h0 : ∀ l, k ≤ l → l < k' → f l = 0) :
    ∑ l ∈ Finset.range k', f l = ∑ l ∈ Finset.range k, g l := by
  rw [← Finset.sum_subset (Finset.range_subset_range.2 hk)]
  · exact Finset.sum_congr rfl fun l hl => h l (Finset.mem_range.1 hl)
  · intro l h1 h2
    exact h0 l (by simpa using h2) (Finset.mem_range.1 h1)

/-- C85: a matrix multiplication layer with the weights on the right, not transposed. Padding succeeds, the announced shapes are right; on an input whose padding holds anything, the padded layer computes
the layer on each row and zeros in the added columns. -/
theorem C85_matmul_right {α : Type} [Semiring α] (m k n m' k' : ℕ) (hk : 0 < k) (hn : 0 < n) (hmm : m ≤ m') (hkk : k ≤ k') (w : List α) (hw : w.length = k * n) (bias : Option (List α))
    (hb : ∀ b ∈ bias, b.length = n) :
    ∃ L n' L', MatMulLayer.new none (some (⟨[k, n], w⟩ : Tensor α)) (bias.map fun b => ⟨[n], b⟩) false = some L ∧ PadSize n n' ∧
      padMatmul L [⟨[m, k], [m', k'], none⟩] = some (L', [⟨[m, n], [m', n'], none⟩]) ∧
      ∀ x x' : List α, x.length = m * k → x'.length = m' * k' → (∀ i < m, ∀ l < k, cell k' x' i l = cell k x i l) →
        ∃ y y', L.op [⟨[m, k], x⟩] = some ⟨[m, n], y⟩ ∧ y.length = m * n ∧ L'.op [⟨[m', k'], x'⟩] = some ⟨[m', n'], y'⟩ ∧ y'.length = m' * n' ∧
          (∀ i < m, ∀ j < n, cell n y i j = ∑ l ∈ Finset.range k, cell k x i l * cell n w l j + biasAt bias j) ∧
          (∀ i < m, ∀ j < n, cell n' y' i j = cell n y i j) ∧
          ∀ i < m', ∀ j < n', cell n' y' i j = if j < n then ∑ l ∈ Finset.range k, cell k' x' i l * cell n w l j + biasAt bias j else 0 := by
  obtain ⟨n', hn'⟩ : ∃ n', n' = padMinimum n := ⟨_, rfl⟩
  have hnn : n ≤ n' := hn' ▸ (padMinimum_ge n).1
  obtain ⟨w', f1, f2, f3⟩ := fitMatrix_spec k n k' n' w hk hn hw hkk hnn
  obtain ⟨bias', b1, b2, b3⟩ := padMatmulBias_spec k' n n' hn hnn bias hb
  have hc : (⟨[k, n], w⟩ : Tensor α).ncols2d = some n := by
    unfold Tensor.ncols2d
    simp only [show n ≠ 0 by omega, if_false]
  refine ⟨_, n', ⟨.input, .weight ⟨[k', n'], w'⟩ [k, n], bias'.map fun b => ⟨[n'], b⟩, false⟩, matmulNew_right k n hk w bias false, hn' ▸ padMinimum_size n, ?_, ?_⟩
  · refine padMatmul_of _ _ [m, k] [k, n] [m, n] [m', n'] [m', k'] [k', n'] _ _ _ ?_ rfl (matmulShape_eq false m k n) ?_ (matmulShape_eq false m' k' n') b1
    · intro s hs
      simp only [List.mem_singleton] at hs
      subst hs
      exact ⟨rfl, rfl⟩
    · unfold padOperands padWeight
      simp only [hc, Option.bind_eq_bind, Option.bind_some, List.getElem?_cons_succ, List.getElem?_cons_zero, ← hn', f1]
  · intro x x' hx hx' hag
    obtain ⟨y, y1, y2, y3⟩ := matmulOp_spec m k n hk hn ⟨.input, .weight ⟨[k, n], w⟩ [k, n], bias.map fun b => ⟨[n], b⟩, false⟩ [⟨[m, k], x⟩] x w bias rfl hx hw rfl hb
    obtain ⟨y', z1, z2, z3⟩ := matmulOp_spec m' k' n' (by omega) (by omega) ⟨.input, .weight ⟨[k', n'], w'⟩ [k, n], bias'.map fun b => ⟨[n'], b⟩, false⟩ [⟨[m', k'], x'⟩] x' w' bias' rfl hx' f2 rfl b2
    have hall : ∀ i < m', ∀ j < n', cell n' y' i j = if j < n then ∑ l ∈ Finset.range k, cell k' x' i l * cell n w l j + biasAt bias j else 0 := by
      intro i hi j hj
      rw [z3 i j hi hj, b3 j hj]
      simp only [cellOf, if_neg Bool.false_ne_true]
      by_cases h : j < n
      · rw [if_pos h, if_pos h, sum_range_cut k k' hkk _ (fun l => cell k' x' i l * cell n w l j)]
        · intro l hl
          rw [cell, cell, f3 l j (by omega) hj, if_pos ⟨hl, h⟩]
          rfl
        · intro l hl hl'
          rw [cell, cell, f3 l j hl' hj, if_neg (by omega), mul_zero]
      · rw [if_neg h, if_neg h, add_zero]
        refine Finset.sum_eq_zero fun l hl => ?_
        rw [cell, cell, f3 l j (Finset.mem_range.1 hl) hj, if_neg (by omega), mul_zero]
    refine ⟨y, y', y1, y2, z1, z2, fun i hi j hj => y3 i j hi hj, ?_, hall⟩
    intro i hi j hj
    rw [hall i (by omega) j (by omega), if_pos hj, y3 i j hi hj]
    congr 1
    refine Finset.sum_congr rfl fun l hl => ?_
    rw [hag i hi l (Finset.mem_range.1 hl)]
    rfl

/-- C85: a matrix multiplication layer with the weights on the left, not transposed. The rows added to the result hold the bias only. -/
theorem C85_matmul_left {α : Type} [Semiring α] (m k p k' p' : ℕ) (hm : 0 < m) (hk : 0 < k) (hp : 0 < p) (hkk : k ≤ k') (hpp : p ≤ p') (w : List α) (hw : w.length = m * k) (bias : Option (List α))
    (hb : ∀ b ∈ bias, b.length = p) :
    ∃ L m' L', MatMulLayer.new (some (⟨[m, k], w⟩ : Tensor α)) none (bias.map fun b => ⟨[p], b⟩) false = some L ∧ PadSize m m' ∧
      padMatmul L [⟨[k, p], [k', p'], none⟩] = some (L', [⟨[m, p], [m', p'], none⟩]) ∧
      ∀ x x' : List α, x.length = k * p → x'.length = k' * p' → (∀ l < k, ∀ j < p, cell p' x' l j = cell p x l j) →
        ∃ y y', L.op [⟨[k, p], x⟩] = some ⟨[m, p], y⟩ ∧ y.length = m * p ∧ L'.op [⟨[k', p'], x'⟩] = some ⟨[m', p'], y'⟩ ∧ y'.length = m' * p' ∧
          (∀ i < m, ∀ j < p, cell p y i j = ∑ l ∈ Finset.range k, cell k w i l * cell p x l j + biasAt bias j) ∧
          (∀ i < m, ∀ j < p, cell p' y' i j = cell p y i j) ∧
          ∀ i < m', ∀ j < p', cell p' y' i j = (if i < m then ∑ l ∈ Finset.range k, cell k w i l * cell p' x' l j else 0) + if j < p then biasAt bias j else 0 := by
  obtain ⟨m', hm'⟩ : ∃ m', m' = padMinimum m := ⟨_, rfl⟩
  have hmm : m ≤ m' := hm' ▸ (padMinimum_ge m).1
  obtain ⟨w', f1, f2, f3⟩ := fitMatrix_spec m k m' k' w hm hk hw hmm hkk
  obtain ⟨bias', b1, b2, b3⟩ := padMatmulBias_spec k' p p' hp hpp bias hb
  have hr : (⟨[m, k], w⟩ : Tensor α).nrows2d = some m := by
    unfold Tensor.nrows2d
    simp only [show m ≠ 0 by omega, if_false]
  refine ⟨_, m', ⟨.weight ⟨[m', k'], w'⟩ [m, k], .input, bias'.map fun b => ⟨[p'], b⟩, false⟩, matmulNew_left m k p hk w bias false, hm' ▸ padMinimum_size m, ?_, ?_⟩
  · refine padMatmul_of _ _ [m, k] [k, p] [m, p] [m', p'] [m', k'] [k', p'] _ _ _ ?_ rfl (matmulShape_eq false m k p) ?_ (matmulShape_eq false m' k' p') b1
    · intro s hs
      simp only [List.mem_singleton] at hs
      subst hs
      exact ⟨rfl, rfl⟩
    · unfold padOperands
      simp only [hr, Option.bind_eq_bind, Option.bind_some, List.getElem?_cons_zero, ← hm', f1]
      rfl
  · intro x x' hx hx' hag
    obtain ⟨y, y1, y2, y3⟩ := matmulOp_spec m k p hk hp ⟨.weight ⟨[m, k], w⟩ [m, k], .input, bias.map fun b => ⟨[p], b⟩, false⟩ [⟨[k, p], x⟩] w x bias rfl hw hx rfl hb
    obtain ⟨y', z1, z2, z3⟩ := matmulOp_spec m' k' p' (by omega) (by omega) ⟨.weight ⟨[m', k'], w'⟩ [m, k], .input, bias'.map fun b => ⟨[p'], b⟩, false⟩ [⟨[k', p'], x'⟩] w' x' bias' rfl f2 hx' rfl b2
    have hall : ∀ i < m', ∀ j < p', cell p' y' i j = (if i < m then ∑ l ∈ Finset.range k, cell k w i l * cell p' x' l j else 0) + if j < p then biasAt bias j else 0 := by
      intro i hi j hj
      rw [z3 i j hi hj, b3 j hj]
      simp only [cellOf, if_neg Bool.false_ne_true]
      congr 1
      by_cases h : i < m
      · rw [if_pos h, sum_range_cut k k' hkk _ (fun l => cell k w i l * cell p' x' l j)]
        · intro l hl
          rw [cell, f3 i l hi (by omega), if_pos ⟨h, hl⟩]
          rfl
        · intro l hl hl'
          rw [cell, f3 i l hi hl', if_neg (by omega), zero_mul]
      · rw [if_neg h]
        refine Finset.sum_eq_zero fun l hl => ?_
        rw [cell, f3 i l hi (Finset.mem_range.1 hl), if_neg (by omega), zero_mul]
    refine ⟨y, y', y1, y2, z1, z2, fun i hi j hj => y3 i j hi hj, ?_, hall⟩
    intro i hi j hj
    rw [hall i (by omega) j (by omega), if_pos hi, if_pos hj, y3 i j hi hj]
    congr 1
    refine Finset.sum_congr rfl fun l hl => ?_
    rw [hag l (Finset.mem_range.1 hl) j hj]
    rfl

/-- C85: a matrix multiplication layer of two inputs, the second one transposed or not. Provided that no entry in the padding of one factor meets a nonzero one of the other, the padded layer computes the result of the layer
in its rows and columns. -/
theorem C85_matmul_inputs {α : Type} [Semiring α] (tr : Bool) (m k p m' k' p' : ℕ) (hk : 0 < k) (hp : 0 < p) (hmm : m ≤ m') (hkk : k ≤ k') (hpp : p ≤ p') (bias : Option (List α)) (hb : ∀ b ∈ bias, b.length = p) :
    ∃ L L', MatMulLayer.new none none (bias.map fun b => (⟨[p], b⟩ : Tensor α)) tr = some L ∧
      padMatmul L [⟨[m, k], [m', k'], none⟩, ⟨if tr then [p, k] else [k, p], if tr then [p', k'] else [k', p'], none⟩] = some (L', [⟨[m, p], [m', p'], none⟩]) ∧
      ∀ x x' y y' : List α, x.length = m * k → x'.length = m' * k' → y.length = k * p → y'.length = k' * p' →
        (∀ i < m, ∀ l < k, cell k' x' i l = cell k x i l) → (∀ l < k, ∀ j < p, cellOf tr k' p' y' l j = cellOf tr k p y l j) →
        (∀ i < m, ∀ j < p, ∀ l, k ≤ l → l < k' → cell k' x' i l * cellOf tr k' p' y' l j = 0) →
        ∃ z z', L.op [⟨[m, k], x⟩, ⟨if tr then [p, k] else [k, p], y⟩] = some ⟨[m, p], z⟩ ∧ z.length = m * p ∧
          L'.op [⟨[m', k'], x'⟩, ⟨if tr then [p', k'] else [k', p'], y'⟩] = some ⟨[m', p'], z'⟩ ∧ z'.length = m' * p' ∧
          (∀ i < m, ∀ j < p, cell p z i j = ∑ l ∈ Finset.range k, cell k x i l * cellOf tr k p y l j + biasAt bias j) ∧
          ∀ i < m, ∀ j < p, cell p' z' i j = cell p z i j := by
  obtain ⟨bias', b1, b2, b3⟩ := padMatmulBias_spec k' p p' hp hpp bias hb
  refine ⟨⟨.input, .input, bias.map fun b => ⟨[p], b⟩, tr⟩, ⟨.input, .input, bias'.map fun b => ⟨[p'], b⟩, tr⟩, ?_, ?_, ?_⟩
  · unfold MatMulLayer.new
    simp only
    rw [if_pos]
    cases bias <;> simp [matmulBiasOk]
  · refine padMatmul_of _ _ [m, k] _ [m, p] [m', p'] [m', k'] _ _ _ _ ?_ rfl (matmulShape_eq tr m k p) rfl (matmulShape_eq tr m' k' p') ?_
    · intro s hs
      simp only [List.mem_cons, List.not_mem_nil, or_false] at hs
      rcases hs with rfl | rfl
      · exact ⟨rfl, rfl⟩
      · cases tr <;> exact ⟨rfl, rfl⟩
    · cases tr <;> exact b1
  · intro x x' y y' hx hx' hy hy' hagx hagy hzero
    obtain ⟨z, y1, y2, y3⟩ := matmulOp_spec m k p hk hp ⟨.input, .input, bias.map fun b => ⟨[p], b⟩, tr⟩ [⟨[m, k], x⟩, ⟨if tr then [p, k] else [k, p], y⟩] x y bias rfl hx hy rfl hb
    obtain ⟨z', z1, z2, z3⟩ := matmulOp_spec m' k' p' (by omega) (by omega) ⟨.input, .input, bias'.map fun b => ⟨[p'], b⟩, tr⟩ [⟨[m', k'], x'⟩, ⟨if tr then [p', k'] else [k', p'], y'⟩] x' y' bias' rfl hx' hy' rfl b2
    refine ⟨z, z', y1, y2, z1, z2, fun i hi j hj => y3 i j hi hj, ?_⟩
    intro i hi j hj
    rw [z3 i j (by omega) (by omega), b3 j (by omega), if_pos hj, y3 i j hi hj]
    congr 1
    refine sum_range_cut k k' hkk _ _ ?_ (fun l hl hl' => hzero i hi j hj l hl hl')
    intro l hl
    rw [hagx i hi l hl, hagy l hl j hj]

/-- C85: the weights on the right and transposed. Padding gives the weights as many rows as the padded input has columns, so it works only if there are no more outputs than that; then the padded layer computes the
result of the layer, in as many columns as the padded input has. -/
theorem C85_matmul_transposed_partial {α : Type} [Semiring α] (m k n m' k' : ℕ) (hk : 0 < k) (hn : 0 < n) (hmm : m ≤ m') (hkk : PadSize k k') (hnk : n ≤ k') (w : List α) (hw : w.length = k * n) :
    ∃ L L', MatMulLayer.new none (some (⟨[n, k], w⟩ : Tensor α)) none true = some L ∧
      padMatmul L [⟨[m, k], [m', k'], none⟩] = some (L', [⟨[m, n], [m', k'], none⟩]) ∧
      ∀ x x' : List α, x.length = m * k → x'.length = m' * k' → (∀ i < m, ∀ l < k, cell k' x' i l = cell k x i l) →
        ∃ y y', L.op [⟨[m, k], x⟩] = some ⟨[m, n], y⟩ ∧ y.length = m * n ∧ L'.op [⟨[m', k'], x'⟩] = some ⟨[m', k'], y'⟩ ∧ y'.length = m' * k' ∧
          (∀ i < m, ∀ j < n, cell n y i j = ∑ l ∈ Finset.range k, cell k x i l * cell k w j l) ∧
          (∀ i < m, ∀ j < n, cell k' y' i j = cell n y i j) ∧ ∀ i < m', ∀ j, n ≤ j → j < k' → cell k' y' i j = 0 := by
  have hkm : padMinimum k = k' := by
    obtain ⟨e, e1, e2, e3, e4⟩ := hkk
    have h1 : padMinimum k ≤ k' := by
      unfold padMinimum
      simp only
      have := nextPow2_min k e (e2 ▸ e3)
      have h4 : 2 ^ 2 ≤ 2 ^ e := Nat.pow_le_pow_right (n := 2) (by omega) e1
      split <;> omega
    refine le_antisymm h1 ?_
    rcases e4 with e4 | e4
    · rw [e2, e4]
      exact padMinimum_four k
    · obtain ⟨f, -, f2, f3, -⟩ := padMinimum_size k
      rw [f2] at f3 ⊢
      rw [e2]
      apply Nat.pow_le_pow_right (by omega)
      by_contra h
      have : 2 ^ f ≤ 2 ^ (e - 1) := Nat.pow_le_pow_right (n := 2) (by omega) (by omega)
      omega
  have hkk' : k ≤ k' := by
    obtain ⟨-, -, -, h, -⟩ := hkk
    exact h
  obtain ⟨w', f1, f2, f3⟩ := fitMatrix_spec n k k' k' w hn hk (by rw [hw, mul_comm]) hnk hkk'
  have hcell : ∀ j l, j < k' → l < k' → cell k' w' j l = if j < n ∧ l < k then w.getD (j * k + l) 0 else 0 := f3
  have hc : (⟨[n, k], w⟩ : Tensor α).ncols2d = some k := by
    unfold Tensor.ncols2d
    simp only [show k ≠ 0 by omega, if_false]
  refine ⟨⟨.input, .weight ⟨[n, k], w⟩ [n, k], none, true⟩, ⟨.input, .weight ⟨[k', k'], w'⟩ [n, k], none, true⟩, matmulNew_right n k hn w none true, ?_, ?_⟩
  · refine padMatmul_of _ _ [m, k] [n, k] [m, n] [m', k'] [m', k'] [k', k'] _ _ _ ?_ rfl (matmulShape_eq true m k n) ?_ (matmulShape_eq true m' k' k') rfl
    · intro s hs
      simp only [List.mem_singleton] at hs
      subst hs
      exact ⟨rfl, rfl⟩
    · unfold padOperands padWeight
      simp only [hc, Option.bind_eq_bind, Option.bind_some, List.getElem?_cons_succ, List.getElem?_cons_zero, hkm, f1]
  · intro x x' hx hx' hag
    obtain ⟨y, y1, y2, y3⟩ := matmulOp_spec m k n hk hn ⟨.input, .weight ⟨[n, k], w⟩ [n, k], none, true⟩ [⟨[m, k], x⟩] x w none rfl hx hw rfl (by simp)
    obtain ⟨y', z1, z2, z3⟩ := matmulOp_spec m' k' k' (by omega) (by omega) ⟨.input, .weight ⟨[k', k'], w'⟩ [n, k], none, true⟩ [⟨[m', k'], x'⟩] x' w' none rfl hx' f2 rfl (by simp)
    simp only [cellOf, if_true, biasAt, add_zero] at y3 z3
    refine ⟨y, y', y1, y2, z1, z2, fun i hi j hj => y3 i j hi hj, ?_, ?_⟩
    · intro i hi j hj
      rw [z3 i j (by omega) (by omega), y3 i j hi hj]
      refine sum_range_cut k k' hkk' _ _ ?_ ?_
      · intro l hl
        rw [hag i hi l hl, hcell j l (by omega) (by omega), if_pos ⟨hj, hl⟩]
        rfl
      · intro l hl hl'
        rw [hcell j l (by omega) hl', if_neg (by omega), mul_zero]
    · intro i hi j hj hj'
      rw [z3 i j hi hj']
      refine Finset.sum_eq_zero fun l hl => ?_
      rw [hcell j l hj' (Finset.mem_range.1 hl), if_neg (by omega), mul_zero]

/-- C85 fails for transposed weights on the right with more outputs than the padded input has columns: the layer works, its padding does not. -/
theorem C85_matmul_transposed_false {α : Type} [Semiring α] (m k n m' k' : ℕ) (hk : 0 < k) (hn : 0 < n) (hnk : k' < n) (w : List α) (hw : w.length = k * n) :
    ∃ L, MatMulLayer.new none (some (⟨[n, k], w⟩ : Tensor α)) none true = some L ∧
      (∀ x, x.length = m * k → ∃ y, L.op [⟨[m, k], x⟩] = some ⟨[m, n], y⟩) ∧ padMatmul L [⟨[m, k], [m', k'], none⟩] = none := by
  refine ⟨⟨.input, .weight ⟨[n, k], w⟩ [n, k], none, true⟩, matmulNew_right n k hn w none true, ?_, ?_⟩
  · intro x hx
    obtain ⟨y, y1, -⟩ := matmulOp_spec m k n hk hn ⟨.input, .weight ⟨[n, k], w⟩ [n, k], none, true⟩ [⟨[m, k], x⟩] x w none rfl hx hw rfl (by simp)
    exact ⟨y, y1⟩
  · have hc : (⟨[n, k], w⟩ : Tensor α).ncols2d = some k := by
      unfold Tensor.ncols2d
      simp only [show k ≠ 0 by omega, if_false]
    have hop : padOperands (⟨.input, .weight ⟨[n, k], w⟩ [n, k], none, true⟩ : MatMulLayer α) [⟨[m, k], [m', k'], none⟩] = none := by
      unfold padOperands padWeight
      simp only [hc, Option.bind_eq_bind, Option.bind_some, List.getElem?_cons_succ, List.getElem?_cons_zero]
      rw [fitMatrix_shrink _ _ _ _ _ (Or.inl hnk)]
      rfl
    unfold padMatmul
    split
    · have hu : matmulShape [m, k] [n, k] true = some [m, n] := matmulShape_eq true m k n
      simp only [MatMulLayer.unpaddedShapes, Option.bind_eq_bind, Option.bind_some, hu, hop, Option.bind_none]
    · rfl

/-- C85 fails for weights on the left and a transposed input: the layer works, but its padding fails unless the input is padded to as many rows as columns. -/
theorem C85_matmul_left_transposed_false {α : Type} [Semiring α] (m k p k' p' : ℕ) (hk : 0 < k) (hp : 0 < p) (hne : p' ≠ k') (w : List α) (hw : w.length = m * k) :
    ∃ L, MatMulLayer.new (some (⟨[m, k], w⟩ : Tensor α)) none none true = some L ∧
      (∀ x, x.length = p * k → ∃ y, L.op [⟨[p, k], x⟩] = some ⟨[m, p], y⟩) ∧ padMatmul L [⟨[p, k], [p', k'], none⟩] = none := by
  refine ⟨⟨.weight ⟨[m, k], w⟩ [m, k], .input, none, true⟩, matmulNew_left m k p hk w none true, ?_, ?_⟩
  · intro x hx
    obtain ⟨y, y1, -⟩ := matmulOp_spec m k p hk hp ⟨.weight ⟨[m, k], w⟩ [m, k], .input, none, true⟩ [⟨[p, k], x⟩] w x none rfl hw (by rw [hx, mul_comm]) rfl (by simp)
    exact ⟨y, y1⟩
  · have hfit : ∀ r t, (⟨[m, k], w⟩ : Tensor α).fitMatrix [r, p'] = some t → t.shape = [r, p'] := by
      intro r t h
      unfold Tensor.fitMatrix at h
      obtain ⟨_, -, h⟩ := Option.bind_eq_some_iff.1 h
      obtain ⟨_, -, h⟩ := Option.bind_eq_some_iff.1 h
      unfold Tensor.reshapeToFit2d at h
      simp only at h
      split at h
      · obtain ⟨_, -, h⟩ := Option.bind_eq_some_iff.1 h
        cases h
        rfl
      · simp at h
    by_contra hsome
    obtain ⟨out, hout⟩ := Option.ne_none_iff_exists'.1 hsome
    unfold padMatmul at hout
    split at hout
    · obtain ⟨_, -, hout⟩ := Option.bind_eq_some_iff.1 hout
      obtain ⟨_, -, hout⟩ := Option.bind_eq_some_iff.1 hout
      obtain ⟨q, hq, hout⟩ := Option.bind_eq_some_iff.1 hout
      obtain ⟨_, hs, hout⟩ := Option.bind_eq_some_iff.1 hout
      unfold padOperands at hq
      simp only [List.getElem?_cons_zero, Option.bind_eq_bind, Option.bind_some] at hq
      obtain ⟨r, -, hq⟩ := Option.bind_eq_some_iff.1 hq
      obtain ⟨t, ht, hq⟩ := Option.bind_eq_some_iff.1 hq
      cases hq
      rw [hfit _ t ht] at hs
      simp [matmulShape, hne] at hs
    · simp at hout

/-- C85: a bias and transposed weights on the right. A layer with a bias can be built only if the bias is as long as the weights have columns, which is the number of columns of the input; it never evaluates unless
that is also the number of outputs. -/
theorem C85_bias_transposed_false {α : Type} [Semiring α] (m k n : ℕ) (hk : 0 < k) (hn : 0 < n) (hne : n ≠ k) (w : List α) (hw : w.length = k * n) :
    (∀ b : List α, b.length = n → MatMulLayer.new none (some (⟨[n, k], w⟩ : Tensor α)) (some ⟨[n], b⟩) true = none) ∧
    ∀ (b : Tensor α) L, MatMulLayer.new none (some (⟨[n, k], w⟩ : Tensor α)) (some b) true = some L → ∀ x, x.length = m * k → L.op [⟨[m, k], x⟩] = none := by
  constructor
  · intro b _
    unfold MatMulLayer.new
    simp only
    rw [if_neg]
    simp [matmulBiasOk, Ne.symm hne]
  · intro b L hL x hx
    unfold MatMulLayer.new at hL
    simp only at hL
    split at hL
    · rename_i h
      cases hL
      have hb : b.shape[0]? = some k := by
        have := h.2.2
        simp [matmulBiasOk] at this
        rw [← this.2]
      obtain ⟨y1, t1, t2, -⟩ := transposeIf_spec true k n w hw
      obtain ⟨z, z1, -⟩ := matmul_spec (⟨[m, k], x⟩ : Tensor α) ⟨[k, n], y1⟩ m k n rfl rfl hx t2
      simp only [if_true] at t1
      unfold MatMulLayer.op
      simp only [MatMulLayer.factors, Option.bind_eq_bind, Option.bind_some]
      rw [t1, Option.bind_some]
      simp only [Tensor.nrows2d, Tensor.ncols2d, show k ≠ 0 by omega, if_false, Option.bind_some, if_true]
      rw [z1, Option.bind_some]
      unfold matmulBias
      simp only
      rw [if_neg]
      rw [hb]
      simpa using hne
    · simp at hL

/-- C85: padded rows. The rows added to the input come out as the bias, not as zeros: the padded result is not the padding of the result whenever rows are added and the bias is not zero. -/
theorem C85_bias_rows_false {α : Type} [Semiring α] (m k n m' k' j : ℕ) (hk : 0 < k) (hmm : m < m') (hkk : k ≤ k') (w : List α) (hw : w.length = k * n) (b : List α) (hb : b.length = n) (hj : j < n) (hbj : b.getD j 0 ≠ 0) :
    ∃ L n' L', MatMulLayer.new none (some (⟨[k, n], w⟩ : Tensor α)) (some ⟨[n], b⟩) false = some L ∧ padMatmul L [⟨[m, k], [m', k'], none⟩] = some (L', [⟨[m, n], [m', n'], none⟩]) ∧
      ∀ x' : List α, x'.length = m' * k' → (∀ l < k', cell k' x' m l = 0) → ∃ y', L'.op [⟨[m', k'], x'⟩] = some ⟨[m', n'], y'⟩ ∧ cell n' y' m j = b.getD j 0 ∧ cell n' y' m j ≠ 0 := by
  obtain ⟨L, n', L', h1, h2, h3, h4⟩ := C85_matmul_right m k n m' k' hk (by omega) hmm.le hkk w hw (some b) (by intro c hc; cases hc; exact hb)
  refine ⟨L, n', L', h1, h3, ?_⟩
  intro x' hx' hzero
  obtain ⟨y, y', -, -, g1, -, -, -, g2⟩ := h4 ((List.range (m * k)).map fun q => cell k' x' (q / k) (q % k)) x' (by simp) hx' (by
    intro i hi l hl
    rw [cell, cell, getD_map_range' _ _ _ _ (mul_add_lt hi hl), mul_add_div' hl, mul_add_mod' hl]
    rfl)
  have hjn : j < n' := by
    obtain ⟨_, -, -, h, -⟩ := h2
    omega
  have : cell n' y' m j = b.getD j 0 := by
    rw [g2 m hmm j hjn, if_pos hj, Finset.sum_eq_zero, zero_add]
    · rfl
    · intro l hl
      rw [hzero l (by have := Finset.mem_range.1 hl; omega), zero_mul]
  exact ⟨y', g1, this, this ▸ hbj⟩

/-- C85: the weights on the right after multi-head attention, whose padded output holds heads of padded dimension with garbage between them. The padded layer computes the result of the layer in its rows and columns
and zeros in the added columns, whatever the garbage is. -/
theorem C85_matmul_garbage {α : Type} [CommSemiring α] (m H d n m' H' d' : ℕ) (hH0 : 0 < H) (hd0 : 0 < d) (hn : 0 < n) (hmm : m ≤ m') (hH : H ≤ H') (hd : d ≤ d') (w : List α) (hw : w.length = H * d * n)
    (bias : Option (List α)) (hb : ∀ b ∈ bias, b.length = n) :
    ∃ L n' L', MatMulLayer.new none (some (⟨[H * d, n], w⟩ : Tensor α)) (bias.map fun b => ⟨[n], b⟩) false = some L ∧ PadSize n n' ∧
      padMatmul L [⟨[m, H * d], [m', H' * d'], some (.mha [m, H, d] [m', H', d'])⟩] = some (L', [⟨[m, n], [m', n'], none⟩]) ∧
      ∀ x x' : List α, x.length = m * (H * d) → x'.length = m' * (H' * d') → (∀ i < m, ∀ h < H, ∀ c < d, cell (H' * d') x' i (h * d' + c) = cell (H * d) x i (h * d + c)) →
        ∃ y y', L.op [⟨[m, H * d], x⟩] = some ⟨[m, n], y⟩ ∧ y.length = m * n ∧ L'.op [⟨[m', H' * d'], x'⟩] = some ⟨[m', n'], y'⟩ ∧ y'.length = m' * n' ∧
          (∀ i < m, ∀ j < n, cell n y i j = ∑ l ∈ Finset.range (H * d), cell (H * d) x i l * cell n w l j + biasAt bias j) ∧
          (∀ i < m, ∀ j < n, cell n' y' i j = cell n y i j) ∧ ∀ i < m', ∀ j, n ≤ j → j < n' → cell n' y' i j = 0 := by
  obtain ⟨n', hn'⟩ : ∃ n', n' = padMinimum n := ⟨_, rfl⟩
  have hnn : n ≤ n' := hn' ▸ (padMinimum_ge n).1
  have hk : 0 < H * d := Nat.mul_pos hH0 hd0
  have hk' : 0 < H' * d' := Nat.mul_pos (by omega) (by omega)
  obtain ⟨w', f1, f2, f3⟩ := C81_garbage H d m m' H' d' (H' * d') n n' (by omega) (by omega) hH hd w hw
  rw [max_self] at f1 f2 f3
  obtain ⟨bias', b1, b2, b3⟩ := padMatmulBias_spec (H' * d') n n' hn hnn bias hb
  have hc : (⟨[H * d, n], w⟩ : Tensor α).ncols2d = some n := by
    unfold Tensor.ncols2d
    simp only [show n ≠ 0 by omega, if_false]
  refine ⟨_, n', ⟨.input, .weight ⟨[H' * d', n'], w'⟩ [H * d, n], bias'.map fun b => ⟨[n'], b⟩, false⟩, matmulNew_right (H * d) n hk w bias false, hn' ▸ padMinimum_size n, ?_, ?_⟩
  · refine padMatmul_of _ _ [m, H * d] [H * d, n] [m, n] [m', n'] [m', H' * d'] [H' * d', n'] _ _ _ ?_ rfl (matmulShape_eq false m _ n) ?_ (matmulShape_eq false m' _ n') b1
    · intro s hs
      simp only [List.mem_singleton] at hs
      subst hs
      exact ⟨rfl, rfl⟩
    · unfold padOperands padWeight
      simp only [hc, Option.bind_eq_bind, Option.bind_some, List.getElem?_cons_succ, List.getElem?_cons_zero, ← hn', Garbage.padWeight, f1]
  · intro x x' hx hx' hag
    obtain ⟨y, y1, y2, y3⟩ := matmulOp_spec m (H * d) n hk hn ⟨.input, .weight ⟨[H * d, n], w⟩ [H * d, n], bias.map fun b => ⟨[n], b⟩, false⟩ [⟨[m, H * d], x⟩] x w bias rfl hx hw rfl hb
    obtain ⟨y', z1, z2, z3⟩ := matmulOp_spec m' (H' * d') n' hk' (by omega) ⟨.input, .weight ⟨[H' * d', n'], w'⟩ [H * d, n], bias'.map fun b => ⟨[n'], b⟩, false⟩ [⟨[m', H' * d'], x'⟩] x' w' bias' rfl hx' f2 rfl b2
    simp only [cellOf, if_neg Bool.false_ne_true] at y3 z3
    refine ⟨y, y', y1, y2, z1, z2, fun i hi j hj => y3 i j hi hj, ?_, ?_⟩
    · intro i hi j hj
      rw [z3 i j (by omega) (by omega), b3 j (by omega), if_pos hj, y3 i j hi hj]
      congr 1
      have := f3 (fun l => cell (H' * d') x' i l) j (by omega)
      rw [if_pos hj] at this
      refine Eq.trans this ?_
      rw [sum_range_mul']
      refine Finset.sum_congr rfl fun h hh => Finset.sum_congr rfl fun c hc => ?_
      rw [hag i hi h (Finset.mem_range.1 hh) c (Finset.mem_range.1 hc)]
      rfl
    · intro i hi j hj hj'
      rw [z3 i j hi hj', b3 j hj', if_neg (by omega), add_zero]
      have := f3 (fun l => cell (H' * d') x' i l) j hj'
      rw [if_neg (by omega)] at this
      exact this

/-! ### Examples -/

/-- `C85_dense_partial`: three outputs of three entries, the input padded with garbage to four. -/
example : ∃ d d', DenseLayer.new (⟨[3, 3], [1, 2, 3, 4, 5, 6, 7, 8, 9]⟩ : Tensor ℤ) ⟨[3], [10, 20, 30]⟩ = some d ∧ padDense d [⟨[3], [4], none⟩] = some (d', [⟨[3], [4], none⟩]) ∧
    d.evaluate ⟨[3], [1, 0, -1]⟩ = some ⟨[3], [8, 18, 28]⟩ ∧ d'.evaluate ⟨[4], [1, 0, -1, 77]⟩ = some ⟨[4], [8, 18, 28, 0]⟩ :=
  ⟨⟨⟨[3, 3], [1, 2, 3, 4, 5, 6, 7, 8, 9]⟩, ⟨[3], [10, 20, 30]⟩, [3, 3]⟩, ⟨⟨[4, 4], [1, 2, 3, 0, 4, 5, 6, 0, 7, 8, 9, 0, 0, 0, 0, 0]⟩, ⟨[4], [10, 20, 30, 0]⟩, [3, 3]⟩, by decide +kernel⟩

/-- `C85_dense_garbage_partial`: one channel of 1×3, padded to 1×1×4. -/
example : ∃ d', padDense (⟨⟨[1, 3], [1, 2, 3]⟩, ⟨[1], [10]⟩, [1, 3]⟩ : DenseLayer ℤ) [⟨[3], [4], some (.conv [1, 1, 3] [1, 1, 4])⟩] = some (d', [⟨[1], [4], none⟩]) ∧
    d'.evaluate ⟨[4], [1, 1, 1, 77]⟩ = some ⟨[4], [16, 0, 0, 0]⟩ :=
  ⟨⟨⟨[4, 4], [1, 2, 3, 0, 0, 0, 0, 0, 0, 0, 0, 0, 0, 0, 0, 0]⟩, ⟨[4], [10, 0, 0, 0]⟩, [1, 3]⟩, by decide +kernel⟩

/-- `C85_dense_rows_false`: two rows of three entries, padded to two rows of four: 1·4 is lost. -/
example : ∃ d', padDense (⟨⟨[1, 6], [0, 0, 0, 1, 0, 0]⟩, ⟨[1], [0]⟩, [1, 6]⟩ : DenseLayer ℤ) [⟨[2, 3], [2, 4], none⟩] = some (d', [⟨[1], [4], none⟩]) ∧
    (⟨⟨[1, 6], [0, 0, 0, 1, 0, 0]⟩, ⟨[1], [0]⟩, [1, 6]⟩ : DenseLayer ℤ).evaluate ⟨[2, 3], [1, 2, 3, 4, 5, 6]⟩ = some ⟨[1], [4]⟩ ∧
    d'.evaluate ⟨[2, 4], [1, 2, 3, 0, 4, 5, 6, 0]⟩ = some ⟨[4], [0, 0, 0, 0]⟩ :=
  ⟨⟨⟨[4, 8], [0, 0, 0, 1, 0, 0, 0, 0, 0, 0, 0, 0, 0, 0, 0, 0, 0, 0, 0, 0, 0, 0, 0, 0, 0, 0, 0, 0, 0, 0, 0, 0]⟩, ⟨[4], [0, 0, 0, 0]⟩, [1, 6]⟩, by decide +kernel⟩

/-- `C85_dense_small_false`: one output of two entries. -/
example : ∃ d', padDense (⟨⟨[1, 2], [1, 2]⟩, ⟨[1], [0]⟩, [1, 2]⟩ : DenseLayer ℤ) [⟨[2], [2], none⟩] = some (d', [⟨[1], [4], none⟩]) ∧
    (⟨⟨[1, 2], [1, 2]⟩, ⟨[1], [0]⟩, [1, 2]⟩ : DenseLayer ℤ).evaluate ⟨[2], [1, 1]⟩ = some ⟨[1], [3]⟩ ∧ d'.evaluate ⟨[2], [1, 1]⟩ = none :=
  ⟨⟨⟨[4, 4], [1, 2, 0, 0, 0, 0, 0, 0, 0, 0, 0, 0, 0, 0, 0, 0]⟩, ⟨[4], [0, 0, 0, 0]⟩, [1, 2]⟩, by decide +kernel⟩

/-- `C85_matmul_right` and `C85_bias_rows_false`: one row of two entries, padded to two rows of two; the second row of the result is the bias. -/
example : ((MatMulLayer.new none (some (⟨[2, 3], [1, 2, 3, 4, 5, 6]⟩ : Tensor ℤ)) (some ⟨[3], [1, 1, 1]⟩) false).bind fun L => L.op [⟨[1, 2], [1, 1]⟩]) = some ⟨[1, 3], [6, 8, 10]⟩ ∧
    ((MatMulLayer.new none (some (⟨[2, 3], [1, 2, 3, 4, 5, 6]⟩ : Tensor ℤ)) (some ⟨[3], [1, 1, 1]⟩) false).bind fun L => (padMatmul L [⟨[1, 2], [2, 2], none⟩]).bind fun q =>
      if q.2 = [⟨[1, 3], [2, 4], none⟩] then q.1.op [⟨[2, 2], [1, 1, 0, 0]⟩] else none) = some ⟨[2, 4], [6, 8, 10, 0, 1, 1, 1, 0]⟩ := by decide +kernel

/-- `C85_matmul_left`. -/
example : ((MatMulLayer.new (some (⟨[1, 2], [1, 2]⟩ : Tensor ℤ)) none none false).bind fun L => L.op [⟨[2, 1], [1, 1]⟩]) = some ⟨[1, 1], [3]⟩ ∧
    ((MatMulLayer.new (some (⟨[1, 2], [1, 2]⟩ : Tensor ℤ)) none none false).bind fun L => (padMatmul L [⟨[2, 1], [2, 1], none⟩]).bind fun q =>
      if q.2 = [⟨[1, 1], [4, 1], none⟩] then q.1.op [⟨[2, 1], [1, 1]⟩] else none) = some ⟨[4, 1], [3, 0, 0, 0]⟩ := by decide +kernel

/-- `C85_matmul_inputs`, with the second input transposed. -/
example : ((MatMulLayer.new none none (none : Option (Tensor ℤ)) true).bind fun L => L.op [⟨[1, 3], [1, 2, 3]⟩, ⟨[2, 3], [1, 1, 1, 0, 0, 1]⟩]) = some ⟨[1, 2], [6, 3]⟩ ∧
    ((MatMulLayer.new none none (none : Option (Tensor ℤ)) true).bind fun L => (padMatmul L [⟨[1, 3], [1, 4], none⟩, ⟨[2, 3], [2, 4], none⟩]).bind fun q =>
      if q.2 = [⟨[1, 2], [1, 2], none⟩] then q.1.op [⟨[1, 4], [1, 2, 3, 0]⟩, ⟨[2, 4], [1, 1, 1, 9, 0, 0, 1, 9]⟩] else none) = some ⟨[1, 2], [6, 3]⟩ := by decide +kernel

/-- `C85_matmul_transposed_partial`: two outputs of three entries. -/
example : ((MatMulLayer.new none (some (⟨[2, 3], [1, 1, 1, 0, 0, 1]⟩ : Tensor ℤ)) none true).bind fun L => L.op [⟨[1, 3], [1, 2, 3]⟩]) = some ⟨[1, 2], [6, 3]⟩ ∧
    ((MatMulLayer.new none (some (⟨[2, 3], [1, 1, 1, 0, 0, 1]⟩ : Tensor ℤ)) none true).bind fun L => (padMatmul L [⟨[1, 3], [1, 4], none⟩]).bind fun q =>
      if q.2 = [⟨[1, 2], [1, 4], none⟩] then q.1.op [⟨[1, 4], [1, 2, 3, 0]⟩] else none) = some ⟨[1, 4], [6, 3, 0, 0]⟩ := by decide +kernel

example : PadSize 3 4 ∧ PadSize 1 4 ∧ PadSize 5 8 ∧ ¬ PadSize 3 8 := by
  refine ⟨⟨2, by decide, by decide, by decide, by decide⟩, ⟨2, by decide, by decide, by decide, by decide⟩, ⟨3, by decide, by decide, by decide, by decide⟩, ?_⟩
  rintro ⟨k, -, h1, -, h2⟩
  obtain rfl : k = 3 := Nat.pow_right_injective (le_refl 2) h1.symm
  revert h2
  decide

/-- `C85_matmul_transposed_false`: five outputs of four entries. -/
example : ((MatMulLayer.new none (some (⟨[5, 4], List.replicate 20 1⟩ : Tensor ℤ)) none true).bind fun L => L.op [⟨[1, 4], [1, 2, 3, 4]⟩]) = some ⟨[1, 5], [10, 10, 10, 10, 10]⟩ ∧
    ((MatMulLayer.new none (some (⟨[5, 4], List.replicate 20 1⟩ : Tensor ℤ)) none true).bind fun L => (padMatmul L [⟨[1, 4], [1, 4], none⟩]).map fun q => q.2) = none := by decide +kernel

/-- `C85_matmul_garbage`: two heads of one entry padded to two entries each, garbage 7. -/
example : ((MatMulLayer.new none (some (⟨[2, 1], [3, 5]⟩ : Tensor ℤ)) none false).bind fun L => L.op [⟨[1, 2], [1, 10]⟩]) = some ⟨[1, 1], [53]⟩ ∧
    ((MatMulLayer.new none (some (⟨[2, 1], [3, 5]⟩ : Tensor ℤ)) none false).bind fun L => (padMatmul L [⟨[1, 2], [1, 4], some (.mha [1, 2, 1] [1, 2, 2])⟩]).bind fun q =>
      if q.2 = [⟨[1, 1], [1, 4], none⟩] then q.1.op [⟨[1, 4], [1, 7, 10, 7]⟩] else none) = some ⟨[1, 4], [53, 0, 0, 0]⟩ := by decide +kernel

end Props
