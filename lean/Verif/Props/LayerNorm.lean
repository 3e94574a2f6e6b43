import Verif.Lemmas.LayerNorm
import Verif.Lemmas.TensorPad
import Verif.Props.Quant

/-!
C83: the quantised layer normalisation.
-/

namespace Props
open Spec Model Lemmas

/-- C83: what is computed. On rows of `n` numbers, `n` being the size the layer was made for, the evaluation succeeds. Every output is `gamma` times `n (x - mean)` times the table's value at the integer part
of `multiplier · n² · variance / 2^R`, plus `beta`, with the mean and the variance of its row; `R` is the number of range checked bits. -/
theorem C83_evaluate (q : QuantLayerNorm) (pre : List ℕ) (R n : ℕ) (hn : 0 < n) (hR : pre.prod = R) (data : List ℤ) (hd : data.length = R * n) (hg : q.gamma.length = n) (hb : q.beta.length = n)
    (hdim : q.dimSize = n) :
    ∃ run, q.evaluate ⟨pre ++ [n], data⟩ = some run ∧ run.output.shape = pre ++ [n] ∧ run.output.data.length = R * n ∧
      ∀ i < R, ∃ x : ℕ → ℚ, (∀ j < n, x j = (data.getD (i * n + j) 0 : ℚ)) ∧
        ∀ j < n, ∃ y, run.output.data[i * n + j]? = some y ∧
          (y : ℚ) = q.gamma.getD j 0 * (n * (x j - mean n x)) * q.table ⌊(q.multiplier * (n : ℚ) ^ 2 * variance n x) / 2 ^ q.rangeBits⌋ + q.beta.getD j 0 := by
  obtain ⟨run, h1, h2, h3, -, -, -, h4⟩ := layerNorm_evaluate q pre R n hn hR data hd hg hb _ _ (fun _ => rfl) (fun _ => rfl)
  refine ⟨run, h1, h2, h3, ?_⟩
  intro i hi
  refine ⟨fun j => (data.getD (i * n + j) 0 : ℚ), fun _ _ => rfl, ?_⟩
  intro j hj
  refine ⟨_, h4 i j hi hj, ?_⟩
  have hfl : ∀ v : ℤ, ∀ w : ℚ, (v : ℚ) = w → v / 2 ^ q.rangeBits = ⌊w / 2 ^ q.rangeBits⌋ := by
    intro v w hw
    have := Rat.floor_intCast_div_natCast v (2 ^ q.rangeBits)
    push_cast at this
    rw [← hw, this]
  rw [hdim, hfl _ (q.multiplier * (n : ℚ) ^ 2 * variance n fun j => (data.getD (i * n + j) 0 : ℚ))]
  · have := mean_mul n hn fun j => (data.getD (i * n + j) 0 : ℚ)
    push_cast
    linear_combination (q.gamma.getD j 0 : ℚ) * (q.table ⌊(q.multiplier * (n : ℚ) ^ 2 * variance n fun j => (data.getD (i * n + j) 0 : ℚ)) / 2 ^ q.rangeBits⌋ : ℚ) * this
  · have := variance_eq n hn fun j => (data.getD (i * n + j) 0 : ℚ)
    push_cast
    linear_combination (q.multiplier : ℚ) * this

/-- C83: the evaluation of rows longer than `gamma` or `beta` panics. -/
theorem C83_mismatch (q : QuantLayerNorm) (pre : List ℕ) (R n : ℕ) (hn : 0 < n) (hR : pre.prod = R) (hpos : 0 < R) (data : List ℤ) (hd : data.length = R * n)
    (h : q.gamma.length < n ∨ q.beta.length < n) : q.evaluate ⟨pre ++ [n], data⟩ = none := by
  unfold QuantLayerNorm.evaluate
  simp only [List.getLast?_append, List.getLast?_singleton, Option.some_or, Option.bind_eq_bind, Option.bind_some]
  rw [if_neg (by omega)]
  have hlen : (((chunks n data).zip (((chunks n data).map fun row => q.fullValue row / 2 ^ q.rangeBits).map q.table)).flatMap fun rd => q.outRow rd.1 rd.2).length
      ≤ R * (n - 1) := by
    rw [List.length_flatMap]
    have hl : ((chunks n data).zip (((chunks n data).map fun row => q.fullValue row / 2 ^ q.rangeBits).map q.table)).length = R := by
      rw [chunks_eq n R hn data (by rw [hd, mul_comm])]
      simp
    rw [← hl]
    generalize (chunks n data).zip (((chunks n data).map fun row => q.fullValue row / 2 ^ q.rangeBits).map q.table) = l
    induction l with
    | nil => simp
    | cons x l ih =>
      rw [List.map_cons, List.sum_cons, List.length_cons, Nat.succ_mul]
      have : (q.outRow x.1 x.2).length ≤ n - 1 := by
        unfold QuantLayerNorm.outRow
        simp only [List.length_map, List.length_zip]
        omega
      omega
  unfold Tensor.new
  rw [if_neg]
  · rfl
  · intro he
    rw [List.prod_append, hR] at he
    simp only [List.prod_cons, List.prod_nil, mul_one] at he
    rw [← he] at hlen
    have : R * (n - 1) < R * n := Nat.mul_lt_mul_of_pos_left (by omega) hpos
    omega

/-- C83: adding a constant to all numbers of a row does not change its outputs. -/
theorem C83_shift (q : QuantLayerNorm) (pre : List ℕ) (R n : ℕ) (hn : 0 < n) (hR : pre.prod = R) (data data' : List ℤ) (hd : data.length = R * n) (hd' : data'.length = R * n)
    (hg : q.gamma.length = n) (hb : q.beta.length = n) (hdim : q.dimSize = n) (c : ℕ → ℤ) (hc : ∀ i < R, ∀ j < n, data'.getD (i * n + j) 0 = data.getD (i * n + j) 0 + c i) :
    ∃ run run', q.evaluate ⟨pre ++ [n], data⟩ = some run ∧ q.evaluate ⟨pre ++ [n], data'⟩ = some run' ∧ run'.output = run.output := by
  obtain ⟨run, h1, h2, h3, -, -, -, h4⟩ := layerNorm_evaluate q pre R n hn hR data hd hg hb _ _ (fun _ => rfl) (fun _ => rfl)
  obtain ⟨run', g1, g2, g3, -, -, -, g4⟩ := layerNorm_evaluate q pre R n hn hR data' hd' hg hb _ _ (fun _ => rfl) (fun _ => rfl)
  refine ⟨run, run', h1, g1, ?_⟩
  have hdata : run'.output.data = run.output.data := by
    apply List.ext_getElem?
    intro k
    by_cases hk : k < R * n
    · obtain ⟨i, j, hi, hj, rfl⟩ : ∃ i j, i < R ∧ j < n ∧ k = i * n + j :=
        ⟨k / n, k % n, (Nat.div_lt_iff_lt_mul hn).2 hk, Nat.mod_lt _ hn, (Nat.div_add_mod' k n).symm⟩
      rw [h4 i j hi hj, g4 i j hi hj]
      have e1 : ∑ j ∈ Finset.range n, data'.getD (i * n + j) 0 = ∑ j ∈ Finset.range n, data.getD (i * n + j) 0 + n * c i := by
        rw [Finset.sum_congr rfl fun j hj => hc i hi j (Finset.mem_range.1 hj), Finset.sum_add_distrib, Finset.sum_const, Finset.card_range, nsmul_eq_mul]
      have e2 : ∑ j ∈ Finset.range n, data'.getD (i * n + j) 0 * data'.getD (i * n + j) 0
          = ∑ j ∈ Finset.range n, data.getD (i * n + j) 0 * data.getD (i * n + j) 0 + 2 * c i * ∑ j ∈ Finset.range n, data.getD (i * n + j) 0 + n * (c i * c i) := by
        rw [Finset.sum_congr rfl fun j hj => by rw [hc i hi j (Finset.mem_range.1 hj)], Finset.mul_sum, ← Finset.sum_add_distrib]
        rw [show (n : ℤ) * (c i * c i) = ∑ _j ∈ Finset.range n, c i * c i by rw [Finset.sum_const, Finset.card_range, nsmul_eq_mul], ← Finset.sum_add_distrib]
        apply Finset.sum_congr rfl
        intro j _
        ring
      rw [e1, e2, hc i hi j hj, hdim]
      generalize ∑ j ∈ Finset.range n, data.getD (i * n + j) 0 = S
      generalize ∑ j ∈ Finset.range n, data.getD (i * n + j) 0 * data.getD (i * n + j) 0 = Q
      have e3 : (n : ℤ) * (data.getD (i * n + j) 0 + c i) - (S + n * c i) = n * data.getD (i * n + j) 0 - S := by ring
      have e4 : (n : ℤ) * q.multiplier * (Q + 2 * c i * S + n * (c i * c i)) - q.multiplier * (S + n * c i) * (S + n * c i) = n * q.multiplier * Q - q.multiplier * S * S := by ring
      rw [e3, e4]
    · rw [List.getElem?_eq_none (by omega), List.getElem?_eq_none (by omega)]
  cases hr : run.output with
  | mk s d =>
    cases hr' : run'.output with
    | mk s' d' =>
      rw [hr] at h2 hdata
      rw [hr'] at g2 hdata
      simp only at h2 g2 hdata
      rw [g2, h2, hdata]

/-- C83, the witness of the lookups: for each row the integer `V = multiplier · (n Σx² - (Σx)²)` is split into the index `V / 2^R`, which is looked up, and a range checked rest below `2^R`. -/
theorem C83_witness (q : QuantLayerNorm) (pre : List ℕ) (R n : ℕ) (hn : 0 < n) (hR : pre.prod = R) (data : List ℤ) (hd : data.length = R * n) (hg : q.gamma.length = n) (hb : q.beta.length = n)
    (run : LayerNormRun) (h : q.evaluate ⟨pre ++ [n], data⟩ = some run) :
    run.lookupInput.length = R ∧ run.lookupOutput = run.lookupInput.map q.table ∧ run.rangeCheck.length = R ∧
      ∀ i < R, 0 ≤ run.rangeCheck.getD i 0 ∧ run.rangeCheck.getD i 0 < 2 ^ q.rangeBits ∧
        run.lookupInput.getD i 0 * 2 ^ q.rangeBits + run.rangeCheck.getD i 0
          = q.multiplier * ((q.dimSize : ℤ) * (∑ j ∈ Finset.range n, data.getD (i * n + j) 0 ^ 2) - (∑ j ∈ Finset.range n, data.getD (i * n + j) 0) ^ 2) := by
  obtain ⟨run', h1, -, -, h2, h3, h4, -⟩ := layerNorm_evaluate q pre R n hn hR data hd hg hb _ _ (fun _ => rfl) (fun _ => rfl)
  rw [h, Option.some.injEq] at h1
  subst h1
  refine ⟨by rw [h2]; simp, by rw [h3, h2, List.map_map]; rfl, by rw [h4]; simp, ?_⟩
  intro i hi
  have hg : ∀ f : ℕ → ℤ, ((List.range R).map f).getD i 0 = f i := by
    intro f
    rw [List.getD_eq_getElem _ _ (by simpa using hi)]
    simp
  rw [h2, h4, hg, hg]
  have h2p : (0 : ℤ) < 2 ^ q.rangeBits := by positivity
  refine ⟨Int.emod_nonneg _ h2p.ne', Int.emod_lt_of_pos _ h2p, ?_⟩
  rw [Int.ediv_mul_add_emod]
  simp only [pow_two]
  ring

theorem pad_gamma (l : List ℤ) (hl : 0 < l.length) : ∃ out, (⟨[l.length], l⟩ : Tensor ℤ).padNextPow2 0 = some ⟨[nextPow2 l.length], out⟩ ∧ out.length = nextPow2 l.length ∧
    ∀ j < nextPow2 l.length, out.getD j 0 = if j < l.length then l.getD j 0 else 0 := by
  obtain ⟨out, h1, h2, h3⟩ := padNextPow2_spec ⟨[l.length], l⟩ 0 (by simp) (by simpa using hl) (by simp)
  refine ⟨out, h1, by simpa using h2, ?_⟩
  intro j hj
  have := h3 [j] (by simp [InRange, hj])
  simpa [InRange, flat] using this

/-- C83, padding, part. Evaluate the padded layer on rows padded to the next power of two: the rows `i < R` hold the original numbers followed by zeros. Then the outputs of these rows are those of the
original layer, followed by zeros. Whatever is in the other rows does not matter. Missing: the padded rows, see `C83_padded_rows_false`. -/
theorem C83_padding_partial (q : QuantLayerNorm) (R R' n : ℕ) (hn : 0 < n) (hRR : R ≤ R') (data data' : List ℤ) (hd : data.length = R * n) (hd' : data'.length = R' * nextPow2 n)
    (hg : q.gamma.length = n) (hb : q.beta.length = n) (hsame : ∀ i < R, ∀ j < nextPow2 n, data'.getD (i * nextPow2 n + j) 0 = if j < n then data.getD (i * n + j) 0 else 0) :
    ∃ q' run run', q.pad = some q' ∧ q.evaluate ⟨[R, n], data⟩ = some run ∧ q'.evaluate ⟨[R', nextPow2 n], data'⟩ = some run' ∧ run'.output.shape = [R', nextPow2 n] ∧
      ∀ i < R, (∀ j < n, ∃ y, run.output.data[i * n + j]? = some y ∧ run'.output.data[i * nextPow2 n + j]? = some y) ∧
        ∀ j, n ≤ j → j < nextPow2 n → run'.output.data[i * nextPow2 n + j]? = some 0 := by
  obtain ⟨g, g1, g2, g3⟩ := pad_gamma q.gamma (by omega)
  obtain ⟨b, b1, b2, b3⟩ := pad_gamma q.beta (by omega)
  rw [hg] at g1 g2 g3
  rw [hb] at b1 b2 b3
  have hpad : q.pad = some { q with gamma := g, beta := b } := by
    unfold QuantLayerNorm.pad
    rw [hg, hb, g1, b1]
    rfl
  obtain ⟨run, h1, -, -, -, -, -, h4⟩ := layerNorm_evaluate q [R] R n hn (by simp) data hd hg hb _ _ (fun _ => rfl) (fun _ => rfl)
  obtain ⟨run', k1, k2, -, -, -, -, k4⟩ := layerNorm_evaluate { q with gamma := g, beta := b } [R'] R' (nextPow2 n) (nextPow2_pos n) (by simp) data' hd' g2 b2 _ _ (fun _ => rfl) (fun _ => rfl)
  refine ⟨_, run, run', hpad, h1, k1, k2, ?_⟩
  have hle := le_nextPow2 n
  have hsum : ∀ i < R, ∀ f : ℤ → ℤ, f 0 = 0 → ∑ j ∈ Finset.range (nextPow2 n), f (data'.getD (i * nextPow2 n + j) 0) = ∑ j ∈ Finset.range n, f (data.getD (i * n + j) 0) := by
    intro i hi f hf
    rw [← Finset.sum_subset (s₁ := Finset.range n)]
    · apply Finset.sum_congr rfl
      intro j hj
      have := Finset.mem_range.1 hj
      rw [hsame i hi j (by omega), if_pos this]
    · intro j hj
      simp only [Finset.mem_range] at hj ⊢
      omega
    · intro j hj hj'
      simp only [Finset.mem_range] at hj hj'
      rw [hsame i hi j hj, if_neg hj', hf]
  intro i hi
  have e1 := hsum i hi (fun x => x) rfl
  have e2 := hsum i hi (fun x => x * x) rfl
  constructor
  · intro j hj
    refine ⟨_, h4 i j hi hj, ?_⟩
    rw [k4 i j (by omega) (by omega)]
    simp only
    rw [e1, e2, g3 j (by omega), b3 j (by omega), hsame i hi j (by omega), if_pos hj, if_pos hj, if_pos hj]
  · intro j hj hj'
    rw [k4 i j (by omega) hj']
    simp only
    rw [g3 j hj', b3 j hj', if_neg (by omega), if_neg (by omega)]
    simp

/-- C83 is false of the padded rows: a row of zeros, such as one added by padding the number of rows, gets the outputs `beta`, not zeros. -/
theorem C83_padded_rows_false (q : QuantLayerNorm) (pre : List ℕ) (R n : ℕ) (hn : 0 < n) (hR : pre.prod = R) (data : List ℤ) (hd : data.length = R * n) (hg : q.gamma.length = n) (hb : q.beta.length = n)
    (i : ℕ) (hi : i < R) (hz : ∀ j < n, data.getD (i * n + j) 0 = 0) :
    ∃ run, q.evaluate ⟨pre ++ [n], data⟩ = some run ∧ ∀ j < n, run.output.data[i * n + j]? = some (q.beta.getD j 0) := by
  obtain ⟨run, h1, -, -, -, -, -, h4⟩ := layerNorm_evaluate q pre R n hn hR data hd hg hb _ _ (fun _ => rfl) (fun _ => rfl)
  refine ⟨run, h1, ?_⟩
  intro j hj
  rw [h4 i j hi hj, hz j hj, Finset.sum_eq_zero fun k hk => hz k (Finset.mem_range.1 hk)]
  simp

theorem roundAway_neg' (x : ℚ) : roundAway (-x) = -roundAway x := by
  unfold roundAway
  rcases lt_trichotomy x 0 with h | h | h
  · rw [if_pos (by linarith), if_neg (by linarith), neg_neg]
  · subst h
    have : ⌊(0 : ℚ) + 1 / 2⌋ = 0 := by rw [Int.floor_eq_iff]; norm_num
    simp only [neg_zero, le_refl, if_true, this]
  · rw [if_neg (by linarith), if_pos h.le, neg_neg]

theorem quantize_bounds (s : ScalingFactor) (B : ℤ) (h1 : -B ≤ s.domain.1) (h2 : s.domain.2 ≤ B) (h3 : s.domain.1 ≤ B) (h4 : -B ≤ s.domain.2) (v : ℚ) : |s.quantize v| ≤ B := by
  unfold ScalingFactor.quantize
  rw [abs_le]
  dsimp only
  split
  · exact ⟨h1, h3⟩
  split
  · exact ⟨h4, h2⟩
  · constructor <;> omega

/-- What a successful quantisation says about the layer. -/
theorem quantiseLayerNorm_inv (bl : ℕ) (tableOf : ℕ → ℤ → ℤ) (gamma beta : List ℚ) (input model : ScalingFactor) (q : QuantLayerNorm) (ibs : ℕ) (bias : ScalingFactor)
    (h : quantiseLayerNorm bl tableOf gamma beta input model = some (q, ibs, bias)) :
    ∃ l m lut b : ℕ, ceilLog2 gamma.length = some l ∧ ceilLog2 q.multiplier.toNat = some m ∧ q.rangeBits + 2 * (bl - 1) = 2 * (l + bl - 1) + m + 1 ∧
      q.topLog = (if q.rangeBits % bl ≠ 0 then bl - q.rangeBits % bl else 0) ∧ layerNormLutBits bl q.table = some lut ∧ q.dimSize = gamma.length ∧ q.gamma = gamma.map model.quantize ∧
      q.beta = beta.map bias.quantize ∧ ibs = max (2 * (bl - 1) + l + 1 + lut) b + 1 ∧ ceilLog2 bias.domain.2.toNat = some b ∧ bias.domain.1 = -bias.domain.2 := by
  unfold quantiseLayerNorm layerNormSizes at h
  simp only [Option.bind_eq_bind, Option.bind_eq_some_iff, Option.some.injEq, Prod.mk.injEq] at h
  obtain ⟨⟨rb, tl⟩, ⟨l, hl, m, hm, rb', hrb, h1, h2⟩, lut, hlut, l', hl', b, hb, rfl, rfl, rfl⟩ := h
  rw [hl, Option.some.injEq] at hl'
  unfold checkedSub at hrb
  split at hrb
  · rename_i hle
    rw [Option.some.injEq] at hrb
    subst hl'
    subst hrb
    refine ⟨l, m, lut, b, hl, hm, by simp only; omega, rfl, hlut, rfl, rfl, rfl, rfl, hb, ?_⟩
    simp only
    rw [neg_div, roundAway_neg']
  · simp at hrb

/-- C83: the sizes computed when the layer is quantised suffice. For inputs of `bl` bits the index of every row is in the upper half of the table, which has entries from `-2^(2 (bl - 1))` to
`2^(2 (bl - 1)) - 1`, and no output exceeds the intermediate bit size handed to the requantisation. -/
theorem C83_sizes (bl : ℕ) (hbl : 1 ≤ bl) (tableOf : ℕ → ℤ → ℤ) (gamma beta : List ℚ) (hgb : beta.length = gamma.length) (input model : ScalingFactor)
    (hmodel : model.domain = (-(2 ^ (bl - 1)) + 1, 2 ^ (bl - 1) - 1)) (q : QuantLayerNorm) (ibs : ℕ) (bias : ScalingFactor)
    (h : quantiseLayerNorm bl tableOf gamma beta input model = some (q, ibs, bias)) (pre : List ℕ) (data : List ℤ) (hd : data.length = pre.prod * gamma.length)
    (hx : ∀ x ∈ data, -(2 ^ (bl - 1)) + 1 ≤ x ∧ x ≤ 2 ^ (bl - 1) - 1) :
    ∃ run, q.evaluate ⟨pre ++ [gamma.length], data⟩ = some run ∧ (∀ v ∈ run.lookupInput, 0 ≤ v ∧ v < 2 ^ (2 * (bl - 1))) ∧ ∀ y ∈ run.output.data, |y| ≤ 2 ^ ibs := by
  obtain ⟨l, m, lut, b, hl, hm, hrb, -, hlut, hdim, hqg, hqb, rfl, hb, hdom⟩ := quantiseLayerNorm_inv bl tableOf gamma beta input model q ibs bias h
  obtain ⟨n, hn⟩ : ∃ n, n = gamma.length := ⟨_, rfl⟩
  obtain ⟨R, hR⟩ : ∃ R, R = pre.prod := ⟨_, rfl⟩
  rw [← hn] at hd hl hdim hgb ⊢
  rw [← hR] at hd
  obtain ⟨hl1, hl2⟩ := ceilLog2_spec hl
  obtain ⟨hm1, hm2⟩ := ceilLog2_spec hm
  obtain ⟨hb1, hb2⟩ := ceilLog2_spec hb
  have hnpos : 0 < n := by
    rcases Nat.eq_zero_or_pos n with h0 | h0
    · rw [h0] at hl2; omega
    · exact h0
  have hmpos : 0 < q.multiplier := by
    rcases lt_or_ge 0 q.multiplier with h0 | h0
    · exact h0
    · rw [Int.toNat_of_nonpos h0] at hm2; omega
  have hbpos : 0 < bias.domain.2 := by
    rcases lt_or_ge 0 bias.domain.2 with h0 | h0
    · exact h0
    · rw [Int.toNat_of_nonpos h0] at hb2; omega
  have hmb : q.multiplier ≤ 2 ^ m := by
    have : ((q.multiplier.toNat : ℕ) : ℤ) ≤ ((2 ^ m : ℕ) : ℤ) := by exact_mod_cast hm1
    push_cast at this
    omega
  have hnb : (n : ℤ) ≤ 2 ^ l := by exact_mod_cast hl1
  have hbb : bias.domain.2 ≤ 2 ^ b := by
    have : ((bias.domain.2.toNat : ℕ) : ℤ) ≤ ((2 ^ b : ℕ) : ℤ) := by exact_mod_cast hb1
    push_cast at this
    omega
  obtain ⟨B, hB⟩ : ∃ B : ℤ, B = 2 ^ (bl - 1) := ⟨_, rfl⟩
  have hBpos : 0 < B := by rw [hB]; positivity
  rw [← hB] at hx hmodel
  have hxx : ∀ k, |data.getD k 0| ≤ B := by
    intro k
    rw [List.getD_eq_getElem?_getD]
    cases hk : data[k]? with
    | none => simpa using hBpos.le
    | some x =>
      obtain ⟨h1, h2⟩ := hx x (List.mem_of_getElem? hk)
      simp only [Option.getD_some]
      rw [abs_le]
      constructor <;> omega
  have hgl : q.gamma.length = n := by rw [hqg, List.length_map, hn]
  have hbl' : q.beta.length = n := by rw [hqb, List.length_map, hgb]
  have hgg : ∀ j, |q.gamma.getD j 0| ≤ B := by
    intro j
    rw [List.getD_eq_getElem?_getD, hqg, List.getElem?_map]
    cases gamma[j]? with
    | none => simpa using hBpos.le
    | some x => exact quantize_bounds model B (by rw [hmodel]; simp) (by rw [hmodel]; simp) (by rw [hmodel]; simp only; omega) (by rw [hmodel]; simp only; omega) x
  have hbet : ∀ j, |q.beta.getD j 0| ≤ 2 ^ b := by
    intro j
    rw [List.getD_eq_getElem?_getD, hqb, List.getElem?_map]
    cases beta[j]? with
    | none => simp
    | some x => exact quantize_bounds bias (2 ^ b) (by rw [hdom]; omega) hbb (by rw [hdom]; omega) (by omega) x
  obtain ⟨run, h1, -, h3, h4, -, -, h5⟩ := layerNorm_evaluate q pre R n hnpos hR.symm data hd hgl hbl' _ _ (fun _ => rfl) (fun _ => rfl)
  have hidx : ∀ i, 0 ≤ ((q.dimSize : ℤ) * q.multiplier * (∑ j ∈ Finset.range n, data.getD (i * n + j) 0 * data.getD (i * n + j) 0)
        - q.multiplier * (∑ j ∈ Finset.range n, data.getD (i * n + j) 0) * (∑ j ∈ Finset.range n, data.getD (i * n + j) 0)) / 2 ^ q.rangeBits ∧
      ((q.dimSize : ℤ) * q.multiplier * (∑ j ∈ Finset.range n, data.getD (i * n + j) 0 * data.getD (i * n + j) 0)
        - q.multiplier * (∑ j ∈ Finset.range n, data.getD (i * n + j) 0) * (∑ j ∈ Finset.range n, data.getD (i * n + j) 0)) / 2 ^ q.rangeBits < 2 ^ (2 * (bl - 1)) := by
    intro i
    rw [hdim]
    have hcs := sq_sum_le_card_mul_sum_sq (s := Finset.range n) (f := fun j => data.getD (i * n + j) 0)
    rw [Finset.card_range] at hcs
    simp only [pow_two] at hcs
    have hsq : ∑ j ∈ Finset.range n, data.getD (i * n + j) 0 * data.getD (i * n + j) 0 ≤ n * (B * B) := by
      calc _ ≤ ∑ _j ∈ Finset.range n, B * B := by
            apply Finset.sum_le_sum
            intro j _
            have := hxx (i * n + j)
            rw [abs_le] at this
            nlinarith
        _ = _ := by rw [Finset.sum_const, Finset.card_range, nsmul_eq_mul]
    generalize ∑ j ∈ Finset.range n, data.getD (i * n + j) 0 * data.getD (i * n + j) 0 = Q at hcs hsq ⊢
    generalize ∑ j ∈ Finset.range n, data.getD (i * n + j) 0 = S at hcs ⊢
    have hp : (0 : ℤ) < 2 ^ q.rangeBits := by positivity
    have e : (n : ℤ) * q.multiplier * Q - q.multiplier * S * S = q.multiplier * (n * Q - S * S) := by ring
    rw [e]
    refine ⟨Int.ediv_nonneg (mul_nonneg hmpos.le (by linarith)) hp.le, ?_⟩
    apply Int.ediv_lt_of_lt_mul hp
    have hn0 : (0 : ℤ) ≤ n := by positivity
    calc q.multiplier * (n * Q - S * S) ≤ q.multiplier * (n * Q) := by
          apply mul_le_mul_of_nonneg_left _ hmpos.le
          nlinarith [mul_self_nonneg S]
      _ ≤ q.multiplier * (n * (n * (B * B))) := by
          apply mul_le_mul_of_nonneg_left _ hmpos.le
          exact mul_le_mul_of_nonneg_left hsq hn0
      _ ≤ 2 ^ m * (2 ^ l * (2 ^ l * (B * B))) := by
          have hBB : 0 ≤ B * B := mul_nonneg hBpos.le hBpos.le
          gcongr
      _ = 2 ^ (2 * l + 2 * (bl - 1) + m) := by rw [hB, pow_add, pow_add, two_mul, two_mul, pow_add, pow_add]; ring
      _ < 2 ^ (2 * (bl - 1) + q.rangeBits) := by
          apply pow_lt_pow_right₀ (by norm_num)
          omega
      _ = _ := by rw [pow_add]
  refine ⟨run, h1, ?_, ?_⟩
  · intro v hv
    rw [h4, List.mem_map] at hv
    obtain ⟨i, -, rfl⟩ := hv
    exact hidx i
  · intro y hy
    obtain ⟨k, hk, hky⟩ := List.mem_iff_getElem.1 hy
    rw [h3] at hk
    obtain ⟨i, j, hi, hj, rfl⟩ : ∃ i j, i < R ∧ j < n ∧ k = i * n + j :=
      ⟨k / n, k % n, (Nat.div_lt_iff_lt_mul hnpos).2 hk, Nat.mod_lt _ hnpos, (Nat.div_add_mod' k n).symm⟩
    have hy' := h5 i j hi hj
    rw [List.getElem?_eq_getElem (by omega), hky, Option.some.injEq] at hy'
    have hi' := hidx i
    have hsum : |∑ j ∈ Finset.range n, data.getD (i * n + j) 0| ≤ n * B := by
      calc _ ≤ ∑ j ∈ Finset.range n, |data.getD (i * n + j) 0| := Finset.abs_sum_le_sum_abs _ _
        _ ≤ ∑ _j ∈ Finset.range n, B := Finset.sum_le_sum fun j _ => hxx _
        _ = _ := by rw [Finset.sum_const, Finset.card_range, nsmul_eq_mul]
    generalize ((q.dimSize : ℤ) * q.multiplier * (∑ j ∈ Finset.range n, data.getD (i * n + j) 0 * data.getD (i * n + j) 0)
        - q.multiplier * (∑ j ∈ Finset.range n, data.getD (i * n + j) 0) * (∑ j ∈ Finset.range n, data.getD (i * n + j) 0)) / 2 ^ q.rangeBits = idx at hi' hy'
    generalize ∑ j ∈ Finset.range n, data.getD (i * n + j) 0 = S at hsum hy'
    have htab : |q.table idx| ≤ 2 ^ lut := by
      unfold layerNormLutBits at hlut
      simp only [Option.bind_eq_bind, Option.bind_eq_some_iff] at hlut
      obtain ⟨mx, hmx, hlog⟩ := hlut
      have hle := (List.max?_eq_some_iff.1 hmx).2 (q.table idx).natAbs (by
        refine List.mem_map.2 ⟨(idx + 2 ^ (2 * (bl - 1))).toNat, List.mem_range.2 ?_, ?_⟩
        · have : ((idx + 2 ^ (2 * (bl - 1))).toNat : ℤ) < ((2 ^ (2 * (bl - 1)) + 2 ^ (2 * (bl - 1)) : ℕ) : ℤ) := by
            push_cast
            omega
          exact_mod_cast this
        · rw [Int.toNat_of_nonneg (by have : (0 : ℤ) < 2 ^ (2 * (bl - 1)) := by positivity
                                      omega)]
          congr 2
          ring)
      have h6 := (ceilLog2_spec hlog).1
      have : ((q.table idx).natAbs : ℤ) ≤ ((2 ^ lut : ℕ) : ℤ) := by exact_mod_cast hle.trans h6
      rw [Int.natCast_natAbs] at this
      push_cast at this
      exact this
    have hdiff : |(q.dimSize : ℤ) * data.getD (i * n + j) 0 - S| ≤ 2 ^ l * 2 * B := by
      rw [hdim]
      have h7 := hxx (i * n + j)
      calc _ ≤ |(n : ℤ) * data.getD (i * n + j) 0| + |S| := abs_sub _ _
        _ ≤ n * B + n * B := by
            rw [abs_mul, Nat.abs_cast]
            have : (n : ℤ) * |data.getD (i * n + j) 0| ≤ n * B := mul_le_mul_of_nonneg_left h7 (by positivity)
            linarith
        _ = n * (2 * B) := by ring
        _ ≤ 2 ^ l * (2 * B) := mul_le_mul_of_nonneg_right hnb (by linarith)
        _ = _ := by ring
    rw [hy']
    calc _ ≤ |q.gamma.getD j 0 * ((q.dimSize : ℤ) * data.getD (i * n + j) 0 - S) * q.table idx| + |q.beta.getD j 0| := abs_add_le _ _
      _ ≤ B * (2 ^ l * 2 * B) * 2 ^ lut + 2 ^ b := by
          rw [abs_mul, abs_mul]
          have := hgg j
          have := hbet j
          gcongr
      _ = 2 ^ (2 * (bl - 1) + l + 1 + lut) + 2 ^ b := by rw [hB, pow_add, pow_add, pow_add, two_mul, pow_add]; ring
      _ ≤ 2 ^ max (2 * (bl - 1) + l + 1 + lut) b + 2 ^ max (2 * (bl - 1) + l + 1 + lut) b := by
          gcongr
          · norm_num
          · exact le_max_left _ _
          · norm_num
          · exact le_max_right _ _
      _ = _ := by rw [pow_succ]; ring

/-- C83 is false of layers without bias: a layer whose `beta` is zero cannot be quantised, the attempt panics. -/
theorem C83_zero_bias_false (bl : ℕ) (tableOf : ℕ → ℤ → ℤ) (gamma beta : List ℚ) (hz : ∀ b ∈ beta, b = 0) (input model : ScalingFactor) :
    quantiseLayerNorm bl tableOf gamma beta input model = none := by
  have hmax : beta.foldl (fun a b => Max.max a |b|) 0 = 0 := by
    induction beta with
    | nil => rfl
    | cons b l ih =>
      rw [List.foldl_cons, hz b (by simp), abs_zero, max_self]
      exact ih fun b hb => hz b (by simp [hb])
  unfold quantiseLayerNorm
  dsimp only
  rw [hmax, zero_div]
  have hr : roundAway (0 : ℚ) = 0 := by exact_mod_cast roundAway_int (K := ℚ) 0
  rw [hr]
  have hc : ceilLog2 (0 : ℤ).toNat = none := rfl
  rw [hc]
  simp

/-- C83, the range check: a rest `v` below `2^R` is split into chunks of `bl` bits. The last one is multiplied by a power of two, `2^t`, so that all chunks are within the range of `bl` bits; they recombine to `v`. -/
theorem C83_chunks (bl : ℕ) (hbl : 1 ≤ bl) (dim : ℕ) (q : QuantLayerNorm) (hs : layerNormSizes bl dim q.multiplier = some (q.rangeBits, q.topLog)) (v : ℤ) (h0 : 0 ≤ v) (h1 : v < 2 ^ q.rangeBits) :
    ∃ low top, q.rangeChunks bl v = low ++ [top] ∧ low.length = (q.rangeBits - 1) / bl ∧ (∀ c ∈ low ++ [top], 0 ≤ c ∧ c < 2 ^ bl) ∧ 2 ^ q.topLog ∣ top ∧
      v = ((List.range low.length).map fun j => low.getD j 0 * (2 ^ bl) ^ j).sum + top / 2 ^ q.topLog * (2 ^ bl) ^ low.length := by
  obtain ⟨k, hk⟩ : ∃ k, k = (q.rangeBits - 1) / bl := ⟨_, rfl⟩
  have hR : 1 ≤ q.rangeBits ∧ q.topLog = if q.rangeBits % bl ≠ 0 then bl - q.rangeBits % bl else 0 := by
    unfold layerNormSizes at hs
    simp only [Option.bind_eq_bind, Option.bind_eq_some_iff, Option.some.injEq, Prod.mk.injEq] at hs
    obtain ⟨l, -, m, -, rb, hrb, h3, h4⟩ := hs
    unfold checkedSub at hrb
    split at hrb
    · rw [Option.some.injEq] at hrb
      rw [h3] at h4 hrb
      exact ⟨by omega, h4.symm⟩
    · simp at hrb
  have hsum : q.rangeBits + q.topLog = bl * k + bl := by
    obtain ⟨hR1, hR2⟩ := hR
    rw [hR2, hk]
    have e := Nat.div_add_mod (q.rangeBits - 1) bl
    have e' := Nat.div_add_mod q.rangeBits bl
    have l1 := Nat.mod_lt (q.rangeBits - 1) (by omega : 0 < bl)
    have l2 := Nat.mod_lt q.rangeBits (by omega : 0 < bl)
    generalize (q.rangeBits - 1) / bl = a at e ⊢
    generalize q.rangeBits / bl = b at e'
    generalize (q.rangeBits - 1) % bl = c at e l1
    generalize q.rangeBits % bl = d at e' l2 ⊢
    have hab : bl * b + d = bl * a + c + 1 := by omega
    by_cases hd : d = 0
    · rw [if_neg (by simpa using hd)]
      subst hd
      have h5 : a < b := by
        by_contra hge
        have := Nat.mul_le_mul_left bl (Nat.le_of_not_lt hge)
        omega
      have h6 : b < a + 2 := by
        by_contra hge
        have := Nat.mul_le_mul_left bl (Nat.le_of_not_lt hge)
        rw [mul_add] at this
        omega
      have : b = a + 1 := by omega
      rw [this, mul_add] at e'
      omega
    · rw [if_pos hd]
      have h5 : a < b + 1 := by
        by_contra hge
        have := Nat.mul_le_mul_left bl (Nat.le_of_not_lt hge)
        rw [mul_add] at this
        omega
      have h6 : b < a + 1 := by
        by_contra hge
        have := Nat.mul_le_mul_left bl (Nat.le_of_not_lt hge)
        rw [mul_add] at this
        omega
      have : b = a := by omega
      rw [this] at e'
      omega
  have htl : q.topLog ≤ bl := by rw [hR.2]; split <;> omega
  have hp : (0 : ℤ) < 2 ^ bl := by positivity
  have hpt : (0 : ℤ) < 2 ^ q.topLog := by positivity
  have hpk : (0 : ℤ) < 2 ^ (k * bl) := by positivity
  have htop0 : 0 ≤ v / 2 ^ (k * bl) := Int.ediv_nonneg h0 hpk.le
  have htop1 : v / 2 ^ (k * bl) < 2 ^ (bl - q.topLog) := by
    apply Int.ediv_lt_of_lt_mul hpk
    rw [← pow_add, show bl - q.topLog + k * bl = q.rangeBits by rw [mul_comm k]; omega]
    exact h1
  have hbt : (2 : ℤ) ^ (bl - q.topLog) * 2 ^ q.topLog = 2 ^ bl := by rw [← pow_add]; congr 1; omega
  have hmod : v / 2 ^ (k * bl) % 2 ^ bl = v / 2 ^ (k * bl) := by
    apply Int.emod_eq_of_lt htop0
    nlinarith
  refine ⟨(List.range k).map fun j => v / 2 ^ (j * bl) % 2 ^ bl, v / 2 ^ (k * bl) * 2 ^ q.topLog, ?_, by simp [hk], ?_, Dvd.intro_left _ rfl, ?_⟩
  · unfold QuantLayerNorm.rangeChunks
    dsimp only
    rw [← hk, List.range_succ, List.map_append]
    congr 1
    · apply List.map_congr_left
      intro j hj
      have := List.mem_range.1 hj
      rw [if_pos (by omega)]
    · simp [hmod]
  · intro c hc
    rw [List.mem_append, List.mem_map, List.mem_singleton] at hc
    rcases hc with ⟨j, -, rfl⟩ | rfl
    · exact ⟨Int.emod_nonneg _ hp.ne', Int.emod_lt_of_pos _ hp⟩
    · constructor
      · positivity
      · rw [← hbt]
        exact mul_lt_mul_of_pos_right htop1 hpt
  · rw [Int.mul_ediv_cancel _ hpt.ne']
    have e := chunks_sum bl k v
    have e' : ((List.range ((List.range k).map fun j => v / 2 ^ (j * bl) % 2 ^ bl).length).map fun j => ((List.range k).map fun j => v / 2 ^ (j * bl) % 2 ^ bl).getD j 0 * ((2 : ℤ) ^ bl) ^ j).sum
        = v % 2 ^ (k * bl) := by
      rw [← e, List.length_map, List.length_range]
      congr 1
      apply List.map_congr_left
      intro j hj
      have hj := List.mem_range.1 hj
      rw [List.getD_eq_getElem _ _ (by simpa using hj), List.getElem_map, List.getElem_range, Int.shiftRight_eq_div_pow]
      push_cast
      rfl
    rw [e', List.length_map, List.length_range, ← pow_mul, mul_comm bl k, add_comm, mul_comm (v / _)]
    exact (Int.mul_ediv_add_emod v _).symm

/-- C83, what the numbers stand for: for a row of numbers `x = scale · row`, the value looked up and its range checked remainder make up `2^24 (n Σ x² - (Σ x)²)`, that is `2^24 n²` times the variance, up to
the rounding of the multiplier, and the outputs times the scaling factor of the bias are `gamma (n x - Σ x) t / 2^10 + beta`, where `t` is the entry found in the table, up to the rounding of `gamma` and `beta`. -/
theorem C83_accuracy (bl : ℕ) (tableOf : ℕ → ℤ → ℤ) (gamma beta : List ℚ) (hgb : beta.length = gamma.length) (input model : ScalingFactor) (hin : 0 < input.scale) (hmo : 0 < model.scale)
    (hgamma : ∀ g ∈ gamma, model.domain.1 * model.scale ≤ g ∧ g ≤ model.domain.2 * model.scale) (q : QuantLayerNorm) (ibs : ℕ) (bias : ScalingFactor)
    (h : quantiseLayerNorm bl tableOf gamma beta input model = some (q, ibs, bias)) (row : List ℤ) (hr : row.length = gamma.length) (hn : 0 < gamma.length) :
    ∃ run v w, q.evaluate ⟨[gamma.length], row⟩ = some run ∧ run.lookupInput = [v] ∧ run.lookupOutput = [q.table v] ∧ run.rangeCheck = [w] ∧
      |((2 ^ q.rangeBits * v + w : ℤ) : ℚ) - 2 ^ 24 * ((gamma.length : ℚ) * (row.map fun y : ℤ => (input.scale * y) ^ 2).sum - (row.map fun y : ℤ => input.scale * y).sum ^ 2)|
        ≤ |(gamma.length : ℚ) * (row.map fun y : ℤ => (y : ℚ) ^ 2).sum - (row.map fun y : ℤ => (y : ℚ)).sum ^ 2| / 2 ∧
      run.output.data.length = gamma.length ∧
      ∀ i < gamma.length,
        |bias.dequantize (run.output.data.getD i 0) -
            (gamma.getD i 0 * ((gamma.length : ℚ) * (input.scale * row.getD i 0) - (row.map fun y : ℤ => input.scale * y).sum) * (q.table v / 2 ^ 10) + beta.getD i 0)|
          ≤ model.scale / 2 * |(gamma.length : ℚ) * (input.scale * row.getD i 0) - (row.map fun y : ℤ => input.scale * y).sum| * (|(q.table v : ℚ)| / 2 ^ 10) + bias.scale / 2 := by
  unfold quantiseLayerNorm at h
  simp only [Option.bind_eq_bind, Option.bind_eq_some_iff, Option.some.injEq, Prod.mk.injEq] at h
  obtain ⟨⟨rb, tl⟩, -, lut, -, l', -, b, hb, hq, -, hbias⟩ := h
  have hsum : ∀ (l : List ℤ), (l.map fun y : ℤ => input.scale * y).sum = input.scale * (l.sum : ℤ) := by
    intro l
    induction l with
    | nil => simp
    | cons a l ih => simp only [List.map_cons, List.sum_cons, ih]; push_cast; ring
  have hsq : ∀ (l : List ℤ), (l.map fun y : ℤ => (input.scale * y) ^ 2).sum = input.scale ^ 2 * ((l.map fun x => x * x).sum : ℤ) := by
    intro l
    induction l with
    | nil => simp
    | cons a l ih => simp only [List.map_cons, List.sum_cons, ih]; push_cast; ring
  have hsum1 : ∀ (l : List ℤ), (l.map fun y : ℤ => (y : ℚ)).sum = (l.sum : ℤ) := by
    intro l
    induction l with
    | nil => simp
    | cons a l ih => simp only [List.map_cons, List.sum_cons, ih]; push_cast; ring
  have hsq1 : ∀ (l : List ℤ), (l.map fun y : ℤ => (y : ℚ) ^ 2).sum = ((l.map fun x => x * x).sum : ℤ) := by
    intro l
    induction l with
    | nil => simp
    | cons a l ih => simp only [List.map_cons, List.sum_cons, ih]; push_cast; ring
  have hbs : bias.scale = input.scale * model.scale / 2 ^ 10 := by rw [← hbias]
  have hbpos : 0 < bias.scale := by rw [hbs]; positivity
  have hchunk : chunks gamma.length row = [row] := by
    have := chunks_flatten gamma.length hn [row] (by simpa using hr)
    simpa using this
  have hqm : q.multiplier = roundAway (2 ^ 24 * input.scale * input.scale) := by rw [← hq]
  have hqg : q.gamma = gamma.map model.quantize := by rw [← hq]
  have hqb : q.beta = beta.map bias.quantize := by rw [← hq, ← hbias]
  have hqd : q.dimSize = gamma.length := by rw [← hq]
  have hlen : ∀ d, (q.outRow row d).length = gamma.length := by
    intro d
    simp [QuantLayerNorm.outRow, hqg, hqb, hr, hgb]
  have hev : q.evaluate ⟨[gamma.length], row⟩ = some ⟨[q.fullValue row / 2 ^ q.rangeBits], [q.table (q.fullValue row / 2 ^ q.rangeBits)], [q.fullValue row % 2 ^ q.rangeBits],
      ⟨[gamma.length], q.outRow row (q.table (q.fullValue row / 2 ^ q.rangeBits))⟩⟩ := by
    unfold QuantLayerNorm.evaluate
    simp only [List.getLast?_singleton, Option.bind_eq_bind, Option.bind_some]
    rw [if_neg (by omega), hchunk]
    simp [Tensor.new, hlen]
  refine ⟨_, _, _, hev, rfl, rfl, rfl, ?_, hlen _, ?_⟩
  · rw [Int.mul_ediv_add_emod, hsum, hsq, hsum1, hsq1]
    have hc : |((roundAway (2 ^ 24 * input.scale * input.scale) : ℤ) : ℚ) - 2 ^ 24 * input.scale * input.scale| ≤ 1 / 2 := roundAway_close _
    rw [← hqm] at hc
    have e : ((q.fullValue row : ℤ) : ℚ) - 2 ^ 24 * ((gamma.length : ℚ) * (input.scale ^ 2 * ((row.map fun x => x * x).sum : ℤ)) - (input.scale * (row.sum : ℤ)) ^ 2)
        = ((q.multiplier : ℚ) - 2 ^ 24 * input.scale * input.scale) * ((gamma.length : ℚ) * ((row.map fun x => x * x).sum : ℤ) - (row.sum : ℤ) ^ 2) := by
      unfold QuantLayerNorm.fullValue
      rw [hqd]
      push_cast
      ring
    rw [e, abs_mul]
    have := mul_le_mul_of_nonneg_right hc (abs_nonneg ((gamma.length : ℚ) * ((row.map fun x => x * x).sum : ℤ) - (row.sum : ℤ) ^ 2))
    linarith
  · intro i hi
    obtain ⟨d, hd⟩ : ∃ d, d = q.table (q.fullValue row / 2 ^ q.rangeBits) := ⟨_, rfl⟩
    rw [← hd]
    have hget : (q.outRow row d).getD i 0 = model.quantize (gamma.getD i 0) * ((gamma.length : ℤ) * row.getD i 0 - row.sum) * d + bias.quantize (beta.getD i 0) := by
      rw [List.getD_eq_getElem _ _ (by rw [hlen]; exact hi), List.getD_eq_getElem _ _ hi, List.getD_eq_getElem _ _ (by omega), List.getD_eq_getElem _ _ (by omega)]
      simp [QuantLayerNorm.outRow, hqg, hqb, hqd]
    simp only
    rw [hget, hsum]
    have hgi : gamma.getD i 0 ∈ gamma := by rw [List.getD_eq_getElem _ _ hi]; exact List.getElem_mem hi
    have hbi : beta.getD i 0 ∈ beta := by rw [List.getD_eq_getElem _ _ (by omega)]; exact List.getElem_mem _
    have hG := C19_accuracy model hmo (gamma.getD i 0) (hgamma _ hgi).1 (hgamma _ hgi).2
    have hB : |bias.dequantize (bias.quantize (beta.getD i 0)) - beta.getD i 0| ≤ bias.scale / 2 := by
      have hmax := (foldl_max_ge beta 0).2 _ hbi
      obtain ⟨M, hM⟩ : ∃ M, M = beta.foldl (fun a b => max a |b|) 0 := ⟨_, rfl⟩
      rw [← hM] at hmax hbias
      obtain ⟨m1, m2⟩ := abs_le.1 hmax
      have hdom : bias.domain = (roundAway (-M / bias.scale), roundAway (M / bias.scale)) := by rw [← hbias]
      have r1 : roundAway (-M / bias.scale) ≤ roundAway (beta.getD i 0 / bias.scale) := roundAway_mono (div_le_div_of_nonneg_right m1 hbpos.le)
      have r2 : roundAway (beta.getD i 0 / bias.scale) ≤ roundAway (M / bias.scale) := roundAway_mono (div_le_div_of_nonneg_right m2 hbpos.le)
      have hqv : bias.quantize (beta.getD i 0) = roundAway (beta.getD i 0 / bias.scale) := by
        unfold ScalingFactor.quantize
        simp only
        rw [hdom, if_neg (by simp only; omega), if_neg (by simp only; omega)]
      have hc : |((roundAway (beta.getD i 0 / bias.scale) : ℤ) : ℚ) - beta.getD i 0 / bias.scale| ≤ 1 / 2 := roundAway_close _
      unfold ScalingFactor.dequantize
      rw [hqv, show ((roundAway (beta.getD i 0 / bias.scale) : ℤ) : ℚ) * bias.scale - beta.getD i 0
        = (((roundAway (beta.getD i 0 / bias.scale) : ℤ) : ℚ) - beta.getD i 0 / bias.scale) * bias.scale by field_simp, abs_mul, abs_of_pos hbpos]
      have := mul_le_mul_of_nonneg_right hc hbpos.le
      linarith
    obtain ⟨G, hGe⟩ : ∃ G : ℚ, G = model.dequantize (model.quantize (gamma.getD i 0)) := ⟨_, rfl⟩
    obtain ⟨B, hBe⟩ : ∃ B : ℚ, B = bias.dequantize (bias.quantize (beta.getD i 0)) := ⟨_, rfl⟩
    rw [← hGe] at hG
    rw [← hBe] at hB
    obtain ⟨X, hX⟩ : ∃ X : ℚ, X = (gamma.length : ℚ) * (input.scale * (row.getD i 0 : ℤ)) - input.scale * (row.sum : ℤ) := ⟨_, rfl⟩
    have e : bias.dequantize (model.quantize (gamma.getD i 0) * ((gamma.length : ℤ) * row.getD i 0 - row.sum) * d + bias.quantize (beta.getD i 0))
        = G * X * (d / 2 ^ 10) + B := by
      rw [hGe, hBe, hX]
      unfold ScalingFactor.dequantize
      rw [hbs]
      push_cast
      ring
    rw [e, ← hX, show G * X * ((d : ℚ) / 2 ^ 10) + B - (gamma.getD i 0 * X * (d / 2 ^ 10) + beta.getD i 0) = (G - gamma.getD i 0) * (X * (d / 2 ^ 10)) + (B - beta.getD i 0) by ring]
    refine (abs_add_le _ _).trans (add_le_add ?_ hB)
    rw [abs_mul, abs_mul, abs_div, abs_of_pos (by positivity : (0 : ℚ) < 2 ^ 10), mul_assoc]
    exact mul_le_mul_of_nonneg_right hG (by positivity)

/-- A layer for rows of three numbers, with three bits and scale `1/1024`, and its evaluation. -/
def exLayerNorm : Option (QuantLayerNorm × ℕ × ScalingFactor) :=
  quantiseLayerNorm 3 (fun r v => if 0 < v then 1024 / (2 ^ r * v) else 0) [1, -1, 1 / 2] [3, 0, -2] ⟨-1, 1, 1 / 1024, (-3, 3)⟩ ⟨-1, 1, 1 / 3, (-3, 3)⟩

example : exLayerNorm.map (fun r => (r.1.gamma, r.1.beta)) = some ([3, -3, 2], [9437184, 0, -6291456]) ∧ exLayerNorm.map (fun r => (r.1.multiplier, r.1.dimSize)) = some (16, 3)
    ∧ exLayerNorm.map (fun r => (r.1.rangeBits, r.1.topLog, r.2.1)) = some (9, 0, 25) ∧ exLayerNorm.map (fun r => layerNormSizes 3 3 r.1.multiplier) = some (some (9, 0)) := by decide +kernel

example : (exLayerNorm.bind fun r => r.1.evaluate ⟨[2, 3], [3, -3, 1, 2, 2, -1]⟩).map (fun r => (r.lookupInput, r.lookupOutput, r.rangeCheck)) = some ([1, 0], [2, 0], [384, 288]) := by decide +kernel

example : (exLayerNorm.bind fun r => r.1.evaluate ⟨[2, 3], [3, -3, 1, 2, 2, -1]⟩).map (fun r => r.output) = some ⟨[2, 3], [9437232, 60, -6291448, 9437184, 0, -6291456]⟩ := by decide +kernel

/-- The hypotheses of `C83_accuracy` hold of this layer, whose numbers `gamma` are within the range of the model's scaling factor. -/
example : exLayerNorm.isSome ∧ ∀ g ∈ ([1, -1, 1 / 2] : List ℚ), ((-3 : ℤ) : ℚ) * (1 / 3) ≤ g ∧ g ≤ ((3 : ℤ) : ℚ) * (1 / 3) := by decide +kernel

/-- Padded to four columns, with a row of zeros below: the padded row gets `beta`. With rows of five numbers the evaluation panics. -/
example : (exLayerNorm.bind fun r => r.1.pad.bind fun q => q.evaluate ⟨[2, 4], [3, -3, 1, 0, 0, 0, 0, 0]⟩).map (fun r => r.output) = some ⟨[2, 4], [9437232, 60, -6291448, 0, 9437184, 0, -6291456, 0]⟩ := by
  decide +kernel

example : (exLayerNorm.bind fun r => r.1.evaluate ⟨[1, 5], [3, -3, 1, 2, 2]⟩).map (fun r => r.output) = none := by decide +kernel

end Props
