import Verif.Lemmas.Mha
import Verif.Props.Softmax

/-!
C81: multi-head attention, and the matrix applied to its padded output.
-/

namespace Props
open Spec Model Lemmas

/-- C81: what is computed. For every number of heads, head dimension and number of positions, the layer succeeds on three matrices of `n` rows of `H · d` entries. The scores are the products of queries and
keys in each head, the weights are the softmax of the scores, and each head's output is the sum of the values with these weights. -/
theorem C81_evaluate (H d n : ℕ) (hH : 0 < H) (hn : 0 < n) (sm : QuantSoftmax) (tv : ℕ) (htv : sm.tableVars = some tv) (q k v : List ℤ)
    (hq : q.length = n * (H * d)) (hk : k.length = n * (H * d)) (hv : v.length = n * (H * d)) :
    ∃ out weights run, (Mha.new H d sm).evaluate [⟨[n, H * d], q⟩, ⟨[n, H * d], k⟩, ⟨[n, H * d], v⟩] = some (⟨[n, H * d], out⟩, ⟨[H, n, n], scores H d n q k⟩, run) ∧
      sm.evaluate ⟨[H, n, n], scores H d n q k⟩ = some run ∧ run.output = ⟨[H, n, n], weights⟩ ∧ out.length = n * (H * d) ∧ weights.length = H * n * n ∧
      ∀ i h c, i < n → h < H → c < d → headEntry H d out i h c = ∑ j ∈ Finset.range n, weights.getD ((h * n + i) * n + j) 0 * headEntry H d v j h c := by
  obtain ⟨out, run, h1, h2, h3, h4, h5⟩ := mha_spec H d n hH hn sm tv htv q k v hq hk hv
  obtain ⟨run', g1, g2, -⟩ := C79_evaluate sm H n hn [H, n, n] (Or.inl rfl) (scores H d n q k) (scores_length ..) tv htv
  rw [h2, Option.some.injEq] at g1
  subst g1
  exact ⟨out, run.output.data, run, h1, h2, by rw [← g2], h3, h4, h5⟩

/-- One position of two layers, of the same or of different sizes, whose softmax gives invisible positions the weight zero. -/
theorem mha_row (H d n H' d' n' i : ℕ) (hH : 0 < H) (hHH : H ≤ H') (hdd : d ≤ d') (hi : i < n) (hi' : i < n') (sm : QuantSoftmax) (tv : ℕ) (htv : sm.tableVars = some tv)
    (hzero : (sm.entry tv sm.ninf).out = 0) (q k v q' k' v' : List ℤ)
    (hqs : ∀ h c, h < H → c < d → headEntry H' d' q' i h c = headEntry H d q i h c)
    (hks : ∀ j h c, j ≤ i → h < H → c < d → headEntry H' d' k' j h c = headEntry H d k j h c)
    (hvs : ∀ j h c, j ≤ i → h < H → c < d → headEntry H' d' v' j h c = headEntry H d v j h c)
    (hpad : ∀ j h c, j ≤ i → h < H → d ≤ c → c < d' → headEntry H' d' q' i h c * headEntry H' d' k' j h c = 0) (run run' : SoftmaxRun)
    (hrun : sm.evaluate ⟨[H, n, n], scores H d n q k⟩ = some run) (hrun' : sm.evaluate ⟨[H', n', n'], scores H' d' n' q' k'⟩ = some run') (h c : ℕ) (hh : h < H) (hc : c < d) :
    attended H' d' n' run'.output.data v' i h c = attended H d n run.output.data v i h c := by
  obtain ⟨_, a1, _, _, a2⟩ := C79_evaluate sm H n (by omega) _ (Or.inl rfl) (scores H d n q k) (scores_length ..) tv htv
  obtain ⟨_, b1, _, _, b2⟩ := C79_evaluate sm H' n' (by omega) _ (Or.inl rfl) (scores H' d' n' q' k') (scores_length ..) tv htv
  rw [hrun, Option.some.injEq] at a1
  rw [hrun', Option.some.injEq] at b1
  subst a1 b1
  have hsc : ∀ j, j ≤ i → (scores H' d' n' q' k').getD ((h * n' + i) * n' + j) 0 = (scores H d n q k).getD ((h * n + i) * n + j) 0 := by
    intro j hj
    rw [scores_getD H' d' n' q' k' (by omega) hi' (by omega), scores_getD H d n q k hh hi (by omega)]
    unfold score
    rw [← Finset.sum_subset (Finset.range_mono hdd)]
    · refine Finset.sum_congr rfl fun c hc => ?_
      have hc := Finset.mem_range.1 hc
      rw [hqs h c hh hc, hks j h c hj hh hc]
    · intro c hc hnc
      exact hpad j h c hj hh (by simpa using hnc) (Finset.mem_range.1 hc)
  obtain ⟨s, s1, s2⟩ := a2 h i hh hi
  obtain ⟨t, t1, t2⟩ := b2 h i (by omega) hi'
  have hvis : visible n' (scores H' d' n' q' k') h i = visible n (scores H d n q k) h i := by
    unfold visible
    exact List.map_congr_left fun j hj => hsc j (by have := List.mem_range.1 hj; omega)
  rw [hvis] at t1
  have := isShift_unique s1 t1
  subst this
  have hw : ∀ j, j < n → run.output.data.getD ((h * n + i) * n + j) 0 = if j ≤ i then (sm.entry tv ((scores H d n q k).getD ((h * n + i) * n + j) 0 * sm.scalar + s)).out else 0 := by
    intro j hj
    rw [List.getD_eq_getElem?_getD, s2 j hj, Option.getD_some]
    by_cases hji : j ≤ i
    · rw [if_pos hji, if_pos hji]
    · rw [if_neg hji, if_neg hji, hzero]
  have hw' : ∀ j, j < n' → run'.output.data.getD ((h * n' + i) * n' + j) 0 = if j ≤ i then (sm.entry tv ((scores H d n q k).getD ((h * n + i) * n + j) 0 * sm.scalar + s)).out else 0 := by
    intro j hj
    rw [List.getD_eq_getElem?_getD, t2 j hj, Option.getD_some]
    by_cases hji : j ≤ i
    · rw [if_pos hji, if_pos hji, hsc j hji]
    · rw [if_neg hji, if_neg hji, hzero]
  have hsum : ∀ (H n : ℕ) (d : ℕ) (p v : List ℤ), i < n → (∀ j, i < j → j < n → p.getD ((h * n + i) * n + j) 0 = 0) →
      attended H d n p v i h c = ∑ j ∈ Finset.range (i + 1), p.getD ((h * n + i) * n + j) 0 * headEntry H d v j h c := by
    intro H n d p v hin hz
    unfold attended
    rw [← Finset.sum_subset (Finset.range_mono (show i + 1 ≤ n by omega))]
    intro j hj hnj
    rw [hz j (by have := Finset.mem_range.not.1 hnj; omega) (Finset.mem_range.1 hj), zero_mul]
  rw [hsum H' n' d' _ v' hi' fun j h1 h2 => by rw [hw' j h2, if_neg (by omega)], hsum H n d _ v hi fun j h1 h2 => by rw [hw j h2, if_neg (by omega)]]
  refine Finset.sum_congr rfl fun j hj => ?_
  have hj := Finset.mem_range.1 hj
  rw [hw j (by omega), hw' j (by omega), hvs j h c (by omega) hh hc]

/-- A table with room beyond the cut-off gives invisible positions the weight zero. -/
theorem room_zero (sm : QuantSoftmax) (tv : ℕ) (hb : 0 < sm.bkm) (hroom : sm.bkm / 2 ^ 16 + 1 < 2 ^ tv) (htab : ∀ k : ℕ, sm.bkm ≤ 2 ^ 16 * (k : ℤ) → sm.table k = 0) :
    (sm.entry tv sm.ninf).out = 0 := by
  have hN := ninf_natAbs sm hb
  have hB0 : 0 ≤ sm.bkm / 2 ^ 16 := by omega
  have hroom' : (sm.bkm / 2 ^ 16).toNat + 1 < 2 ^ tv := by
    have : (((sm.bkm / 2 ^ 16).toNat + 1 : ℕ) : ℤ) < ((2 ^ tv : ℕ) : ℤ) := by push_cast; omega
    exact_mod_cast this
  have hc : sm.ninf.natAbs < 2 ^ (16 + tv + sm.zeroChunks * sm.zeroVars) := by
    calc sm.ninf.natAbs = ((sm.bkm / 2 ^ 16).toNat + 1) * 2 ^ 16 := by rw [hN]; ring
      _ < 2 ^ tv * 2 ^ 16 := Nat.mul_lt_mul_of_pos_right hroom' (by positivity)
      _ = 2 ^ (16 + tv) := by rw [pow_add]; ring
      _ ≤ _ := Nat.pow_le_pow_right (by omega) (by omega)
  rw [entry_table sm tv (by omega) htab _ hc, htab]
  have : sm.ninf.natAbs / 2 ^ 16 = (sm.bkm / 2 ^ 16).toNat + 1 := by omega
  rw [this]
  push_cast
  omega

/-- C81, causality: the output at position `i` depends only on the query at position `i` and on the keys and values at positions up to `i`: two runs that agree on these, even of different lengths, have the same
output at position `i`. Partial: the table must have room beyond the cut-off, which the code does not ensure (`C81_leak_false`). -/
theorem C81_causal_partial (H d n n' i : ℕ) (hH : 0 < H) (hi : i < n) (hi' : i < n') (sm : QuantSoftmax) (tv : ℕ) (htv : sm.tableVars = some tv)
    (hb : 0 < sm.bkm) (hroom : sm.bkm / 2 ^ 16 + 1 < 2 ^ tv) (htab : ∀ k : ℕ, sm.bkm ≤ 2 ^ 16 * (k : ℤ) → sm.table k = 0) (q k v q' k' v' : List ℤ)
    (hq : q.length = n * (H * d)) (hk : k.length = n * (H * d)) (hv : v.length = n * (H * d))
    (hq' : q'.length = n' * (H * d)) (hk' : k'.length = n' * (H * d)) (hv' : v'.length = n' * (H * d))
    (hqs : ∀ h c, h < H → c < d → headEntry H d q' i h c = headEntry H d q i h c)
    (hks : ∀ j h c, j ≤ i → h < H → c < d → headEntry H d k' j h c = headEntry H d k j h c)
    (hvs : ∀ j h c, j ≤ i → h < H → c < d → headEntry H d v' j h c = headEntry H d v j h c) :
    ∃ out out' sc sc' run run', (Mha.new H d sm).evaluate [⟨[n, H * d], q⟩, ⟨[n, H * d], k⟩, ⟨[n, H * d], v⟩] = some (⟨[n, H * d], out⟩, sc, run) ∧
      (Mha.new H d sm).evaluate [⟨[n', H * d], q'⟩, ⟨[n', H * d], k'⟩, ⟨[n', H * d], v'⟩] = some (⟨[n', H * d], out'⟩, sc', run') ∧
      ∀ h c, h < H → c < d → headEntry H d out' i h c = headEntry H d out i h c := by
  obtain ⟨out, run, h1, h2, -, -, h3⟩ := mha_spec H d n hH (by omega) sm tv htv q k v hq hk hv
  obtain ⟨out', run', g1, g2, -, -, g3⟩ := mha_spec H d n' hH (by omega) sm tv htv q' k' v' hq' hk' hv'
  refine ⟨out, out', _, _, run, run', h1, g1, ?_⟩
  intro h c hh hc
  rw [h3 i h c hi hh hc, g3 i h c hi' hh hc]
  exact mha_row H d n H d n' i hH le_rfl le_rfl hi hi' sm tv htv (room_zero sm tv hb hroom htab) q k v q' k' v' hqs hks hvs (fun _ _ c _ _ h1 h2 => absurd h1 (by omega)) run run' h2 g2 h c hh hc

/-- C81, padding: the padded layer, on matrices whose number of rows and columns of each head are padded, computes the same output at every real position, head and column, whatever the padding of the values and of the rows,
provided the padding columns of the queries or those of the keys are zero. Partial: as `C81_causal_partial`. -/
theorem C81_padding_partial (H d n n' : ℕ) (hH : 0 < H) (hn : 0 < n) (hnn : n ≤ n') (sm : QuantSoftmax) (tv : ℕ) (htv : sm.tableVars = some tv)
    (hb : 0 < sm.bkm) (hroom : sm.bkm / 2 ^ 16 + 1 < 2 ^ tv) (htab : ∀ k : ℕ, sm.bkm ≤ 2 ^ 16 * (k : ℤ) → sm.table k = 0) (q k v q' k' v' : List ℤ)
    (hq : q.length = n * (H * d)) (hk : k.length = n * (H * d)) (hv : v.length = n * (H * d))
    (hq' : q'.length = n' * (nextPow2 H * nextPow2 d)) (hk' : k'.length = n' * (nextPow2 H * nextPow2 d)) (hv' : v'.length = n' * (nextPow2 H * nextPow2 d))
    (hqs : ∀ i h c, i < n → h < H → c < d → headEntry (nextPow2 H) (nextPow2 d) q' i h c = headEntry H d q i h c)
    (hks : ∀ i h c, i < n → h < H → c < d → headEntry (nextPow2 H) (nextPow2 d) k' i h c = headEntry H d k i h c)
    (hvs : ∀ i h c, i < n → h < H → c < d → headEntry (nextPow2 H) (nextPow2 d) v' i h c = headEntry H d v i h c)
    (hpad : ∀ i j h c, i < n → j < n → h < H → d ≤ c → c < nextPow2 d →
      headEntry (nextPow2 H) (nextPow2 d) q' i h c = 0 ∨ headEntry (nextPow2 H) (nextPow2 d) k' j h c = 0) :
    ∃ out padded out' sc sc' run run', (Mha.new H d sm).evaluate [⟨[n, H * d], q⟩, ⟨[n, H * d], k⟩, ⟨[n, H * d], v⟩] = some (⟨[n, H * d], out⟩, sc, run) ∧
      (Mha.new H d sm).pad = some padded ∧
      padded.evaluate [⟨[n', nextPow2 H * nextPow2 d], q'⟩, ⟨[n', nextPow2 H * nextPow2 d], k'⟩, ⟨[n', nextPow2 H * nextPow2 d], v'⟩] =
        some (⟨[n', nextPow2 H * nextPow2 d], out'⟩, sc', run') ∧
      ∀ i h c, i < n → h < H → c < d → headEntry (nextPow2 H) (nextPow2 d) out' i h c = headEntry H d out i h c := by
  obtain ⟨padded, p1, p2, p3, p4⟩ := mha_pad H d sm
  obtain ⟨out, run, h1, h2, -, -, h3⟩ := mha_spec H d n hH hn sm tv htv q k v hq hk hv
  subst p2
  obtain ⟨out', run', g1, g2, -, -, g3⟩ := mha_spec' (nextPow2 H) (nextPow2 d) n' (nextPow2_pos H) (by omega) padded _ _ p3 p4 tv htv q' k' v' hq' hk' hv'
  refine ⟨out, padded, out', _, _, run, run', h1, p1, g1, ?_⟩
  intro i h c hi hh hc
  have hHH := le_nextPow2 H
  have hdd := le_nextPow2 d
  rw [h3 i h c hi hh hc, g3 i h c (by omega) (by omega) (by omega)]
  refine mha_row H d n _ _ n' i hH hHH hdd hi (by omega) padded.softmax tv htv (room_zero padded.softmax tv hb hroom htab) q k v q' k' v' (fun h c => hqs i h c hi) (fun j h c hj => hks j h c (by omega)) (fun j h c hj => hvs j h c (by omega))
    ?_ run run' h2 g2 h c hh hc
  intro j h c hj hh h4 h5
  rcases hpad i j h c hi (by omega) hh h4 h5 with e | e <;> rw [e] <;> simp

/-- C81: the matrix after the layer. Padded with the shapes of the layer's output, its product with any row is the product of the original matrix with the entries of the real heads and columns: whatever the layer leaves in the
others is ignored. Columns beyond the original ones are zero. -/
theorem C81_garbage {α : Type} [CommSemiring α] (H d n n' H' d' r cols tc : ℕ) (hd' : 0 < d') (htc : 0 < tc) (hH : H ≤ H') (hd : d ≤ d') (w : List α) (hw : w.length = H * d * cols) :
    ∃ data, padMhaMatrix ⟨[H * d, cols], w⟩ [n, H, d] [n', H', d'] [r, tc] = some ⟨[max r (H' * d'), tc], data⟩ ∧ data.length = max r (H' * d') * tc ∧
      ∀ (x : ℕ → α) (col : ℕ), col < tc → ∑ row ∈ Finset.range (max r (H' * d')), x row * data.getD (row * tc + col) 0 =
        if col < cols then ∑ h ∈ Finset.range H, ∑ c ∈ Finset.range d, x (h * d' + c) * w.getD ((h * d + c) * cols + col) 0 else 0 := by
  obtain ⟨data, h1, h2, h3⟩ := padMhaMatrix_spec H d H' d' n n' r cols tc w hw htc
  refine ⟨data, h1, h2, ?_⟩
  intro x col hcol
  have : ∀ row ∈ Finset.range (max r (H' * d')), x row * data.getD (row * tc + col) 0 =
      if row % d' < d ∧ row / d' < H then x (row / d' * d' + row % d') * (if col < cols then w.getD ((row / d' * d + row % d') * cols + col) 0 else 0) else 0 := by
    intro row hr
    rw [h3 row col (Finset.mem_range.1 hr) hcol, Nat.div_add_mod']
    split <;> simp
  rw [Finset.sum_congr rfl this, sum_heads H d H' d' _ hd' hH hd (le_max_right _ _) (fun h c => x (h * d' + c) * (if col < cols then w.getD ((h * d + c) * cols + col) 0 else 0))]
  by_cases hcc : col < cols
  · simp only [if_pos hcc]
  · simp only [if_neg hcc, mul_zero, Finset.sum_const_zero]

/-- C81, both together: the padded layer followed by its padded matrix computes, at every real position, what the layer followed by the matrix computes, and zero in the columns added to the matrix. Partial: as `C81_causal_partial`. -/
theorem C81_then_matrix_partial (H d n n' r cols tc : ℕ) (hH : 0 < H) (hn : 0 < n) (hnn : n ≤ n') (htc : 0 < tc) (hr : r ≤ nextPow2 H * nextPow2 d) (sm : QuantSoftmax) (tv : ℕ)
    (htv : sm.tableVars = some tv) (hb : 0 < sm.bkm) (hroom : sm.bkm / 2 ^ 16 + 1 < 2 ^ tv) (htab : ∀ k : ℕ, sm.bkm ≤ 2 ^ 16 * (k : ℤ) → sm.table k = 0) (q k v q' k' v' w : List ℤ)
    (hw : w.length = H * d * cols)
    (hq : q.length = n * (H * d)) (hk : k.length = n * (H * d)) (hv : v.length = n * (H * d))
    (hq' : q'.length = n' * (nextPow2 H * nextPow2 d)) (hk' : k'.length = n' * (nextPow2 H * nextPow2 d)) (hv' : v'.length = n' * (nextPow2 H * nextPow2 d))
    (hqs : ∀ i h c, i < n → h < H → c < d → headEntry (nextPow2 H) (nextPow2 d) q' i h c = headEntry H d q i h c)
    (hks : ∀ i h c, i < n → h < H → c < d → headEntry (nextPow2 H) (nextPow2 d) k' i h c = headEntry H d k i h c)
    (hvs : ∀ i h c, i < n → h < H → c < d → headEntry (nextPow2 H) (nextPow2 d) v' i h c = headEntry H d v i h c)
    (hpad : ∀ i j h c, i < n → j < n → h < H → d ≤ c → c < nextPow2 d →
      headEntry (nextPow2 H) (nextPow2 d) q' i h c = 0 ∨ headEntry (nextPow2 H) (nextPow2 d) k' j h c = 0) :
    ∃ out padded out' sc sc' run run' w', (Mha.new H d sm).evaluate [⟨[n, H * d], q⟩, ⟨[n, H * d], k⟩, ⟨[n, H * d], v⟩] = some (⟨[n, H * d], out⟩, sc, run) ∧
      (Mha.new H d sm).pad = some padded ∧
      padded.evaluate [⟨[n', nextPow2 H * nextPow2 d], q'⟩, ⟨[n', nextPow2 H * nextPow2 d], k'⟩, ⟨[n', nextPow2 H * nextPow2 d], v'⟩] =
        some (⟨[n', nextPow2 H * nextPow2 d], out'⟩, sc', run') ∧
      padMhaMatrix ⟨[H * d, cols], w⟩ [n, H, d] [n', nextPow2 H, nextPow2 d] [r, tc] = some ⟨[nextPow2 H * nextPow2 d, tc], w'⟩ ∧
      ∀ i col, i < n → col < tc → ∑ x ∈ Finset.range (nextPow2 H * nextPow2 d), out'.getD (i * (nextPow2 H * nextPow2 d) + x) 0 * w'.getD (x * tc + col) 0 =
        if col < cols then ∑ x ∈ Finset.range (H * d), out.getD (i * (H * d) + x) 0 * w.getD (x * cols + col) 0 else 0 := by
  obtain ⟨out, padded, out', sc, sc', run, run', h1, h2, h3, h4⟩ := C81_padding_partial H d n n' hH hn hnn sm tv htv hb hroom htab q k v q' k' v' hq hk hv hq' hk' hv' hqs hks hvs hpad
  obtain ⟨w', g1, -, g2⟩ := C81_garbage H d n n' (nextPow2 H) (nextPow2 d) r cols tc (nextPow2_pos d) htc (le_nextPow2 H) (le_nextPow2 d) w hw
  rw [max_eq_right hr] at g1 g2
  refine ⟨out, padded, out', sc, sc', run, run', w', h1, h2, h3, g1, ?_⟩
  intro i col hi hcol
  rw [g2 (fun x => out'.getD (i * (nextPow2 H * nextPow2 d) + x) 0) col hcol]
  by_cases hcc : col < cols
  swap
  · rw [if_neg hcc, if_neg hcc]
  rw [if_pos hcc, if_pos hcc, sum_range_mul']
  refine Finset.sum_congr rfl fun h hh => Finset.sum_congr rfl fun c hc => ?_
  have := h4 i h c hi (Finset.mem_range.1 hh) (Finset.mem_range.1 hc)
  unfold headEntry at this
  rw [this]

/-- C81 is false when the table's size is the cut-off plus one and there are no further chunks: every later position is attended to with the largest weight of the table. Changing the values at a position `j` after `i` by any amount
changes the output at `i` by that amount times the largest weight. -/
theorem C81_leak_false (H d n i j : ℕ) (hij : i < j) (hj : j < n) (hH : 0 < H) (sm : QuantSoftmax) (tv : ℕ) (htv : sm.tableVars = some tv)
    (hb : 0 < sm.bkm) (hK : sm.zeroChunks = 0) (htight : sm.bkm / 2 ^ 16 + 1 = 2 ^ tv) (q k v v' : List ℤ)
    (hq : q.length = n * (H * d)) (hk : k.length = n * (H * d)) (hv : v.length = n * (H * d)) (hv' : v'.length = n * (H * d))
    (hvs : ∀ x h c, x < n → x ≠ j → h < H → c < d → headEntry H d v' x h c = headEntry H d v x h c) :
    ∃ out out' sc run, (Mha.new H d sm).evaluate [⟨[n, H * d], q⟩, ⟨[n, H * d], k⟩, ⟨[n, H * d], v⟩] = some (⟨[n, H * d], out⟩, sc, run) ∧
      (Mha.new H d sm).evaluate [⟨[n, H * d], q⟩, ⟨[n, H * d], k⟩, ⟨[n, H * d], v'⟩] = some (⟨[n, H * d], out'⟩, sc, run) ∧
      ∀ h c, h < H → c < d → headEntry H d out' i h c - headEntry H d out i h c = sm.table 0 * (headEntry H d v' j h c - headEntry H d v j h c) := by
  obtain ⟨out, run, h1, h2, -, -, h3⟩ := mha_spec H d n hH (by omega) sm tv htv q k v hq hk hv
  obtain ⟨out', run', g1, g2, -, -, g3⟩ := mha_spec H d n hH (by omega) sm tv htv q k v' hq hk hv'
  rw [h2, Option.some.injEq] at g2
  subst g2
  refine ⟨out, out', _, run, h1, g1, ?_⟩
  intro h c hh hc
  obtain ⟨_, a1, _, _, a2⟩ := C79_evaluate sm H n (by omega) _ (Or.inl rfl) (scores H d n q k) (scores_length ..) tv htv
  rw [h2, Option.some.injEq] at a1
  subst a1
  obtain ⟨s, -, s2⟩ := a2 h i hh (by omega)
  have hw : run.output.data.getD ((h * n + i) * n + j) 0 = sm.table 0 := by
    rw [List.getD_eq_getElem?_getD, s2 j hj, Option.getD_some, if_neg (by omega), C79_mask_leaks_false sm tv hb hK htight]
  rw [h3 i h c (by omega) hh hc, g3 i h c (by omega) hh hc]
  unfold attended
  rw [← Finset.sum_sub_distrib, Finset.sum_eq_single j]
  · rw [hw]; ring
  · intro x hx hne
    rw [hvs x h c (Finset.mem_range.1 hx) hne hh hc]; ring
  · intro hn; exact absurd (Finset.mem_range.2 hj) hn

/-- Two heads of dimension two over three positions: the hypotheses of `C81_causal_partial` on the softmax hold of `softmaxExample` (see there). The first position attends to itself only. -/
example : ((Mha.new 2 2 softmaxExample).evaluate [⟨[3, 4], [1, 0, 2, 1, 0, 1, 1, 1, 2, 2, 0, 1]⟩, ⟨[3, 4], [1, 1, 0, 3, 2, 0, 1, 1, 0, 1, 1, 0]⟩, ⟨[3, 4], [5, 6, 7, 8, 1, 2, 3, 4, 9, 9, 9, 9]⟩]).map
    (fun r => (r.1.shape, r.1.data, r.2.2.output.data)) =
    some ([3, 4], [20480, 24576, 28672, 32768, 22528, 28672, 34816, 40960, 43008, 51200, 47101, 53245],
      [4096, 0, 0, 4096, 2048, 0, 4096, 4096, 2048, 4096, 0, 0, 4096, 2048, 0, 4096, 2048, 1365]) := by decide +kernel

/-- `C81_garbage`: one head of dimension three padded to four, two columns padded to four, garbage 7. -/
example : (padMhaMatrix (α := ℤ) ⟨[3, 2], [1, 2, 3, 4, 5, 6]⟩ [5, 1, 3] [8, 1, 4] [4, 4]) = some ⟨[4, 4], [1, 2, 0, 0, 3, 4, 0, 0, 5, 6, 0, 0, 0, 0, 0, 0]⟩ := by decide +kernel

end Props
