import Verif.Lemmas.Elementwise

/-! Properties C59, C71 and C72: addition, reshaping, and their quantised and padded forms. -/

namespace Props

open Model Spec Lemmas

/-! ### C59: claims about sums and rearrangements -/

section
variable {F : Type} [Field F] [DecidableEq F]

theorem toField_sum (p : ℕ) [CharP F p] (hp : 2 ^ 63 ≤ p) (a b : ℤ) (ha : a.natAbs ≤ 2 ^ 63) (hb : b.natAbs ≤ 2 ^ 63) (l r out : List ℤ)
    (hl : ∀ x ∈ l, x.natAbs ≤ 2 ^ 63) (hr : ∀ x ∈ r, x.natAbs ≤ 2 ^ 63) (h : addEvaluate a b l r = some out) :
    (out.map (toField p) : List F) = List.zipWith (fun x y => x * toField p a + y * toField p b) (l.map (toField p)) (r.map (toField p)) ∧ out.length = l.length := by
  obtain ⟨h1, h2, h3⟩ := addEvaluate_spec a b l r out h
  have hc : ∀ x : ℤ, x.natAbs ≤ 2 ^ 63 → (toField p x : F) = (x : F) := fun x hx => toField_eq_cast p x (hx.trans hp)
  refine ⟨?_, by rw [h2, List.length_zipWith]; omega⟩
  refine List.ext_getElem (by rw [h2]; simp) fun i i1 i2 => ?_
  rw [List.getElem_map, List.getElem_zipWith, List.getElem_map, List.getElem_map]
  have hio : i < out.length := by simpa using i1
  have hil : i < l.length := by rw [h2] at hio; simp at hio; omega
  have hir : i < r.length := by omega
  have hv : out[i] = l[i] * a + r[i] * b := by
    have : out[i] = (List.zipWith (fun x y => x * a + y * b) l r)[i]'(by rw [h2] at hio; exact hio) := by congr 1
    rw [this, List.getElem_zipWith]
  rw [hc _ (by have := h3 _ (List.getElem_mem hio); omega), hc _ (hl _ (List.getElem_mem hil)), hc _ (hr _ (List.getElem_mem hir)), hc a ha, hc b hb, hv]
  push_cast
  ring

/-- C59 for addition, completeness: for all integer tensors of the same power-of-two size, all multipliers and every point, the prover turns the true claim about the sum into the true
claims about the two operands (the second for the commitment if it is static), and the verifier accepts and returns the same claims. -/
theorem C59_add_complete (p : ℕ) [CharP F p] (hp : 2 ^ 63 ≤ p) (a b : ℤ) (ha : a.natAbs ≤ 2 ^ 63) (hb : b.natAbs ≤ 2 ^ 63) (l r out : List ℤ)
    (hl : ∀ x ∈ l, x.natAbs ≤ 2 ^ 63) (hr : ∀ x ∈ r, x.natAbs ≤ 2 ^ 63) (h : addEvaluate a b l r = some out) (point : List F) (hlen : l.length = 2 ^ point.length)
    (static : Bool) (hb0 : static = true → (toField p b : F) ≠ 0) :
    ∃ claims common proof,
      proveAdd (toField p a) (toField p b) static (l.map (toField p)) (r.map (toField p)) ⟨point, mle (out.map (toField p)) point⟩ = some (claims, common, proof) ∧
      verifyAdd (toField p a) (toField p b) static proof ⟨point, mle (out.map (toField p)) point⟩ = some (claims, common) ∧
      claims ++ common.toList = [⟨point, mle (l.map (toField p)) point⟩, ⟨point, mle (r.map (toField p)) point⟩] ∧ claims.length = if static then 1 else 2 := by
  obtain ⟨e1, -⟩ := toField_sum (F := F) p hp a b ha hb l r out hl hr h
  have hll := (addEvaluate_spec a b l r out h).1
  have hm := mle_zipWith (toField p a : F) (toField p b) (l.map (toField p)) (r.map (toField p)) point (by simpa using hlen) (by simpa using hll ▸ hlen)
  rw [e1, hm]
  have el := evaluateTensor_eq (l.map (toField p) : List F) point (by simpa using hlen)
  have er := evaluateTensor_eq (r.map (toField p) : List F) point (by simpa using hll ▸ hlen)
  cases static with
  | true =>
    have h0 := hb0 rfl
    have hd : (mle (l.map (toField p)) point * toField p a + mle (r.map (toField p)) point * toField p b - mle (l.map (toField p)) point * toField p a) / toField p b =
        (mle (r.map (toField p)) point : F) := by
      field_simp
      ring
    refine ⟨[⟨point, mle (l.map (toField p)) point⟩], some ⟨point, mle (r.map (toField p)) point⟩, ⟨mle (l.map (toField p)) point, mle (r.map (toField p)) point⟩, ?_, ?_, rfl, rfl⟩
    · simp only [proveAdd, el, Option.bind_eq_bind, Option.bind_some, if_true, h0, if_false, hd]
    · simp [verifyAdd]
  | false =>
    refine ⟨[⟨point, mle (l.map (toField p)) point⟩, ⟨point, mle (r.map (toField p)) point⟩], none, ⟨mle (l.map (toField p)) point, mle (r.map (toField p)) point⟩, ?_, ?_, rfl, rfl⟩
    · simp [proveAdd, el, er]
    · simp [verifyAdd]

/-- C59 for addition, soundness: whatever the proof, if the verifier accepts and the claims it returns (or passes to the commitment) are true of the operands then the claim it was given is
true of the sum. -/
theorem C59_add_sound (p : ℕ) [CharP F p] (hp : 2 ^ 63 ≤ p) (a b : ℤ) (ha : a.natAbs ≤ 2 ^ 63) (hb : b.natAbs ≤ 2 ^ 63) (l r out : List ℤ)
    (hl : ∀ x ∈ l, x.natAbs ≤ 2 ^ 63) (hr : ∀ x ∈ r, x.natAbs ≤ 2 ^ 63) (h : addEvaluate a b l r = some out) (last : Claim F) (hlen : l.length = 2 ^ last.point.length)
    (static : Bool) (proof : AddProof F) (claims : List (Claim F)) (common : Option (Claim F))
    (hv : verifyAdd (toField p a) (toField p b) static proof last = some (claims, common)) :
    ∃ x y : F, claims ++ common.toList = [⟨last.point, x⟩, ⟨last.point, y⟩] ∧ common.isSome = static ∧
      (x = mle (l.map (toField p)) last.point → y = mle (r.map (toField p)) last.point → last.eval = mle (out.map (toField p)) last.point) := by
  obtain ⟨e1, -⟩ := toField_sum (F := F) p hp a b ha hb l r out hl hr h
  have hll := (addEvaluate_spec a b l r out h).1
  have hm := mle_zipWith (toField p a : F) (toField p b) (l.map (toField p)) (r.map (toField p)) last.point (by simpa using hlen) (by simpa using hll ▸ hlen)
  unfold verifyAdd at hv
  split at hv
  swap
  · simp at hv
  rename_i hs
  refine ⟨proof.leftEval, proof.rightEval, ?_, ?_, ?_⟩
  · cases static <;> simp at hv <;> obtain ⟨rfl, rfl⟩ := hv <;> rfl
  · cases static <;> simp at hv <;> obtain ⟨rfl, rfl⟩ := hv <;> rfl
  · intro hx hy
    rw [e1, hm, ← hs, hx, hy]

/-- The sum of two tensors with multipliers 3 and -2, and a wrong sum. -/
example : addEvaluate 3 (-2) [1, 2, -3, 4] [5, 6, 7, -8] = some [-7, -6, -23, 28] ∧ addEvaluate 1 1 [2 ^ 62] [2 ^ 62] = none ∧
    verifyAdd (F := ℚ) 3 (-2) true ⟨1, 5⟩ ⟨[0, 0], -7⟩ = some ([⟨[0, 0], 1⟩], some ⟨[0, 0], 5⟩) ∧ verifyAdd (F := ℚ) 3 (-2) false ⟨1, 5⟩ ⟨[0, 0], -8⟩ = none ∧
    (2 : ℕ) ^ 63 ≤ goldilocks := by decide +kernel

/-- The condition of completeness is needed: with a static operand whose multiplier is zero the prover panics. See `C71_dropped_false` for when that happens. -/
theorem C59_zero_multiplier_false (a : F) (l r : List F) (last : Claim F) : proveAdd a 0 true l r last = none := by
  unfold proveAdd
  cases evaluateTensor l last.point <;> simp

end

/-- The shapes that a reshape announces for given input shapes, before any data is seen, have the sizes of the inputs. -/
theorem C59_reshape_shapes (r : Reshape) (shapes outs : List (List ℕ)) (h : r.internalOutput shapes = some outs) :
    outs.length = shapes.length ∧ ∀ (i : ℕ) (o s : List ℕ), outs[i]? = some o → shapes[i]? = some s → o.prod = s.prod := by
  unfold Reshape.internalOutput at h
  simp only [Option.bind_eq_bind, Option.bind_eq_some_iff] at h
  obtain ⟨dims, -, h⟩ := h
  split at h
  swap
  · cases h
  rename_i hc
  obtain rfl := Option.some.inj h
  refine ⟨hc.1, fun i o s ho hs => ?_⟩
  have := List.all_eq_true.mp hc.2 (o, s) (by
    rw [List.mem_iff_getElem?]
    exact ⟨i, by rw [List.getElem?_zip_eq_some]; exact ⟨ho, hs⟩⟩)
  simpa using this

/-- A shape of another size is refused. -/
example : (Reshape.full [[2, 6]] [[2, 6]]).internalOutput [[3, 4]] = some [[2, 6]] ∧ (Reshape.full [[2, 5]] [[2, 5]]).internalOutput [[3, 4]] = none := by decide

/-- C59 for the layers that are not proved: reshaping and flattening keep the data of every tensor, so that a claim about the output is, unchanged, a claim about the input. -/
theorem C59_reshape {α : Type} (r : Reshape) (inputs outs : List (Tensor α)) (h : r.evaluate inputs = some outs) :
    outs.map Tensor.data = inputs.map Tensor.data ∧ r.internalOutput (inputs.map Tensor.shape) = some (outs.map Tensor.shape) ∧
    outs.map (fun t => t.shape.prod) = inputs.map fun t => t.shape.prod := by
  unfold Reshape.evaluate at h
  simp only [Option.bind_eq_bind, Option.bind_eq_some_iff] at h
  obtain ⟨dims, hd, h⟩ := h
  rw [hd]
  unfold Reshape.internalOutput at hd
  simp only [Option.bind_eq_bind, Option.bind_eq_some_iff] at hd
  obtain ⟨d', -, hd⟩ := hd
  split at hd
  swap
  · simp at hd
  rename_i hc
  obtain ⟨hlen, -⟩ := hc
  have : d' = dims := Option.some.inj hd
  subst this
  rw [List.length_map] at hlen
  clear hd
  induction d' generalizing inputs outs with
  | nil =>
    have : inputs = [] := List.length_eq_zero_iff.1 hlen.symm
    subst this
    simp at h
    subst h
    simp
  | cons d ds ih =>
    cases inputs with
    | nil => simp at hlen
    | cons t ts =>
      rw [List.zip_cons_cons, List.mapM_cons] at h
      simp only [Option.bind_eq_bind, Option.bind_eq_some_iff, Option.pure_def, Option.some.injEq] at h
      obtain ⟨o, ho, os, hos, rfl⟩ := h
      obtain ⟨i1, i2, i3⟩ := ih ts os (by simpa using hlen) hos
      unfold Tensor.reshape at ho
      split at ho
      swap
      · simp at ho
      rename_i hp
      have : o = ⟨d, t.data⟩ := (Option.some.inj ho).symm
      subst this
      rw [Option.some.injEq] at i2 ⊢
      refine ⟨by simp [i1], by simp [i2], ?_⟩
      simp only [List.map_cons, i3]
      exact congrArg (· :: _) hp.symm

/-- Flattening likewise. -/
theorem C59_flatten {α : Type} (t : Tensor α) (ts : List (Tensor α)) :
    flattenEvaluate [t] = some [⟨[t.data.length], t.data⟩] ∧ (ts.length ≠ 1 → flattenEvaluate ts = none) := by
  refine ⟨rfl, fun h => ?_⟩
  match ts, h with
  | [], _ => rfl
  | [_], h => exact absurd rfl h
  | _ :: _ :: _, _ => rfl

example : (Reshape.subspace 1 3 [6, 2] []).evaluate [(⟨[2, 3, 4], (List.range 24)⟩ : Tensor ℕ)] = some [⟨[2, 6, 2], List.range 24⟩] ∧
    (Reshape.squeeze 1).evaluate [(⟨[2, 3], (List.range 6)⟩ : Tensor ℕ)] = some [⟨[2, 1, 3], List.range 6⟩] ∧
    (Reshape.full [[3, 3]] []).evaluate [(⟨[2, 3], (List.range 6)⟩ : Tensor ℕ)] = none := by decide +kernel

/-! ### C71: quantised addition -/

/-- C71: scales of at most one. The quantised sum, at the common scale, differs from the sum of the quantities the quantised operands stand for by at most a `2^-9`-th of their sizes (for
eight-bit quantisation). The common scale is positive and both multipliers are. Missing: scales above one, see `C71_dropped_false`. -/
theorem C71_accuracy_partial (bl : ℕ) (l r o : ℝ) (l0 : 0 < l) (l1 : l ≤ 1) (r0 : 0 < r) (r1 : r ≤ 1) (o0 : 0 < o) (o1 : o ≤ 1) (q : AddQuant)
    (hq : addQuant bl l r o = q) (x y z : ℤ) (hz : addEvaluate q.leftMul q.rightMul [x] [y] = some [z]) :
    |q.common * z - (l * x + r * y)| ≤ (l * |(x : ℝ)| + r * |(y : ℝ)|) / 2 ^ (min bl 8 + 1) ∧ 0 < q.leftMul ∧ 0 < q.rightMul ∧ 0 < q.common ∧
      (q.requant = false → q.common = o) := by
  obtain ⟨h1, h2, h3, h4⟩ := addQuant_spec bl l r o l0 l1 r0 r1 o0 o1
  rw [hq] at h1 h2 h3 h4
  have hzz : z = x * q.leftMul + y * q.rightMul := by
    have := (addEvaluate_spec _ _ _ _ _ hz).2.1
    simpa using this
  have hp : (2 : ℝ) ≤ 2 ^ (min bl 8 + 1) := by
    have := one_le_pow₀ (by norm_num : (1 : ℝ) ≤ 2) (n := min bl 8)
    rw [pow_succ]
    linarith
  have pos : ∀ (s : ℝ) (m : ℤ), 0 < s → |q.common * m - s| ≤ s / 2 ^ (min bl 8 + 1) → 0 < m := by
    intro s m hs hm
    have h5 : s / 2 ^ (min bl 8 + 1) ≤ s / 2 := by
      rw [div_le_div_iff₀ (by positivity) (by norm_num)]
      nlinarith
    have h6 := (abs_le.1 (hm.trans h5)).1
    have h7 : 0 < q.common * (m : ℝ) := by linarith
    have h8 : 0 < (m : ℝ) := by
      by_contra hc
      have := mul_nonpos_of_nonneg_of_nonpos h1.le (not_lt.1 hc)
      linarith
    exact_mod_cast h8
  refine ⟨?_, pos l _ l0 h3, pos r _ r0 h4, h1, ?_⟩
  · rw [hzz]
    push_cast
    have e : q.common * (x * q.leftMul + y * q.rightMul) - (l * x + r * y) = (q.common * q.leftMul - l) * x + (q.common * q.rightMul - r) * y := by ring
    rw [e]
    refine (abs_add_le _ _).trans ?_
    rw [abs_mul, abs_mul, add_div]
    refine add_le_add ?_ ?_
    · calc _ ≤ l / 2 ^ (min bl 8 + 1) * |(x : ℝ)| := mul_le_mul_of_nonneg_right h3 (abs_nonneg _)
        _ = _ := by ring
    · calc _ ≤ r / 2 ^ (min bl 8 + 1) * |(y : ℝ)| := mul_le_mul_of_nonneg_right h4 (abs_nonneg _)
        _ = _ := by ring
  · intro hr
    rw [← hq] at hr ⊢
    unfold addQuant at hr ⊢
    simp only at hr ⊢
    have hcm : ∀ h w out hs os, (addCommon bl h w out hs os).2 = false → (addCommon bl h w out hs os).1 = os := by
      intro h w out hs os hf
      unfold addCommon at hf ⊢
      split_ifs at hf ⊢ <;> simp_all
    split_ifs at hr ⊢
    · exact hcm _ _ _ _ _ hr
    · exact hcm _ _ _ _ _ hr

/-- C71, range: operands that stand for quantities between -1 and 1 give sums within the bit size declared to the requantisation, which therefore does not reject them. -/
theorem C71_range_partial (bl : ℕ) (l r o : ℝ) (l0 : 0 < l) (r0 : 0 < r) (o0 : 0 < o) (o1 : o ≤ 1) (q : AddQuant) (hq : addQuant bl l r o = q) (hbl : 1 < bl)
    (hl : l * qMax bl ≤ 1) (hr : r * qMax bl ≤ 1) (x y z : ℤ) (hx : |x| ≤ qMax bl) (hy : |y| ≤ qMax bl)
    (hz : addEvaluate q.leftMul q.rightMul [x] [y] = some [z]) : |z| ≤ 2 ^ q.bitSize := by
  have hm : (1 : ℤ) ≤ qMax bl := by
    unfold qMax
    have : (2 : ℤ) ^ 1 ≤ 2 ^ (bl - 1) := pow_le_pow_right₀ (by norm_num) (by omega)
    omega
  have hm' : (1 : ℝ) ≤ (qMax bl : ℝ) := by exact_mod_cast hm
  have l1 : l ≤ 1 := (le_mul_of_one_le_right l0.le hm').trans hl
  have r1 : r ≤ 1 := (le_mul_of_one_le_right r0.le hm').trans hr
  obtain ⟨h1, h2, h3, h4⟩ := addQuant_spec bl l r o l0 l1 r0 r1 o0 o1
  obtain ⟨h5, -⟩ := C71_accuracy_partial bl l r o l0 l1 r0 r1 o0 o1 q hq x y z hz
  rw [hq] at h1 h2 h3 h4
  have hb := (bitSize_ge q h1 (h2.trans ((min_le_left _ _).trans l1))).1
  have hx' : |(x : ℝ)| ≤ qMax bl := by exact_mod_cast hx
  have hy' : |(y : ℝ)| ≤ qMax bl := by exact_mod_cast hy
  have hlx : l * |(x : ℝ)| ≤ 1 := (mul_le_mul_of_nonneg_left hx' l0.le).trans hl
  have hry : r * |(y : ℝ)| ≤ 1 := (mul_le_mul_of_nonneg_left hy' r0.le).trans hr
  have hp : (2 : ℝ) ≤ 2 ^ (min bl 8 + 1) := by
    have := one_le_pow₀ (by norm_num : (1 : ℝ) ≤ 2) (n := min bl 8)
    rw [pow_succ]
    linarith
  have h6 : (l * |(x : ℝ)| + r * |(y : ℝ)|) / 2 ^ (min bl 8 + 1) ≤ 1 := by
    rw [div_le_one (by positivity)]
    linarith
  have h7 : |l * (x : ℝ) + r * y| ≤ 2 := by
    refine (abs_add_le _ _).trans ?_
    rw [abs_mul, abs_mul, abs_of_pos l0, abs_of_pos r0]
    linarith
  have h8 : |q.common * (z : ℝ)| ≤ 3 := by
    have := abs_sub_abs_le_abs_sub (q.common * (z : ℝ)) (l * x + r * y)
    linarith
  rw [abs_mul, abs_of_pos h1] at h8
  have h9 : |(z : ℝ)| ≤ 2 ^ q.bitSize := by
    by_contra hc
    have := mul_lt_mul_of_pos_left (not_le.1 hc) h1
    linarith
  exact_mod_cast h9

/-- The hypotheses are met by operands and an output with scale 1/256. -/
example : (0 : ℝ) < 1 / 256 ∧ (1 / 256 : ℝ) * qMax 8 ≤ 1 ∧ |(100 : ℤ)| ≤ qMax 8 := by
  have : qMax 8 = 127 := rfl
  rw [this]
  norm_num

/-- The multipliers when both operands have the same scale and the output a coarser one. -/
theorem addQuant_same (s o : ℝ) (s0 : 0 < s) (o1 : o ≤ 1) (hso : s < o) :
    addQuant 8 s s o = ⟨roundAway (s / 2 ^ (-((⌈-Real.logb 2 s⌉₊ : ℝ) + 8))), roundAway (s / 2 ^ (-((⌈-Real.logb 2 s⌉₊ : ℝ) + 8))),
      2 ^ (-((⌈-Real.logb 2 s⌉₊ : ℝ) + 8)), true⟩ := by
  have o0 := s0.trans hso
  have s1 : s ≤ 1 := hso.le.trans o1
  unfold addQuant
  simp only [abs_logb s s0 s1, abs_logb o o0 o1, le_refl, if_true]
  have hlt : -Real.logb 2 o < -Real.logb 2 s := neg_lt_neg_iff.2 (Real.logb_lt_logb (by norm_num) s0 hso)
  have : addCommon 8 (-Real.logb 2 s) (-Real.logb 2 s) (-Real.logb 2 o) s o = ((2 : ℝ) ^ (-((⌈-Real.logb 2 s⌉₊ : ℝ) + 8)), true) := by
    unfold addCommon
    rw [if_neg (not_lt.2 hlt.le), if_neg hlt.ne', if_neg (by norm_num)]
  rw [this]

/-- C71 fails for larger quantities: two operands with the same scale of at least 1/63, that is, standing for quantities up to about 2, and an output with a coarser scale. The sum of the two
largest quantised values exceeds the bit size declared to the requantisation, which rejects it: the quantised model cannot be run on such an input. -/
theorem C71_range_false (s o : ℝ) (hs : 1 / 63 ≤ s) (hso : s < o) (o1 : o ≤ 1) (q : AddQuant) (hq : addQuant 8 s s o = q) (z : ℤ)
    (hz : addEvaluate q.leftMul q.rightMul [qMax 8] [qMax 8] = some [z]) (fpm : ℤ) (shift scale : ℕ) :
    2 ^ q.bitSize < |z| ∧ (⟨shift, fpm, scale, q.bitSize⟩ : Requant).op 8 [z] = none := by
  have s0 : 0 < s := by linarith [show (0 : ℝ) < 1 / 63 by norm_num]
  have s1 : s < 1 := hso.trans_le o1
  have hsame := addQuant_same s o s0 o1 hso
  obtain ⟨c, hc⟩ : ∃ c : ℝ, c = 2 ^ (-((⌈-Real.logb 2 s⌉₊ : ℝ) + 8)) := ⟨_, rfl⟩
  rw [← hc] at hsame
  have c0 : 0 < c := by rw [hc]; exact Real.rpow_pos_of_pos (by norm_num) _
  have hlog : Real.logb 2 c = -((⌈-Real.logb 2 s⌉₊ : ℝ) + 8) := by rw [hc]; exact Real.logb_rpow (by norm_num) (by norm_num)
  have hbs : q.bitSize = ⌈-Real.logb 2 s⌉₊ + 10 := by
    rw [← hq, hsame]
    unfold AddQuant.bitSize
    simp only [hlog]
    have : |(-((⌈-Real.logb 2 s⌉₊ : ℝ) + 8))| = ((⌈-Real.logb 2 s⌉₊ + 8 : ℕ) : ℝ) := by
      rw [abs_neg, abs_of_nonneg (by positivity)]
      push_cast
      ring
    rw [this, Nat.ceil_natCast]
  have hcb : c * 2 ^ q.bitSize = 4 := by
    rw [hbs, ← Real.rpow_natCast, hc, ← Real.rpow_add (by norm_num)]
    push_cast
    rw [show -((⌈-Real.logb 2 s⌉₊ : ℝ) + 8) + (⌈-Real.logb 2 s⌉₊ + 10) = (2 : ℝ) by ring]
    norm_num
  have hcs : c * 256 ≤ s := by
    have h1 : -((⌈-Real.logb 2 s⌉₊ : ℝ) + 8) + 8 ≤ Real.logb 2 s := by
      have := Nat.le_ceil (-Real.logb 2 s)
      linarith
    have h2 := Real.rpow_le_rpow_of_exponent_le (by norm_num : (1 : ℝ) ≤ 2) h1
    rw [Real.rpow_add (by norm_num), two_rpow_neg_logb s s0, ← hc] at h2
    norm_num at h2
    exact h2
  have hmul := (abs_le.1 (mul_round c s c0)).1
  have hz' : z = qMax 8 * roundAway (s / c) + qMax 8 * roundAway (s / c) := by
    have := (addEvaluate_spec _ _ _ _ _ hz).2.1
    rw [← hq, hsame] at this
    simpa using this
  have hq8 : qMax 8 = 127 := rfl
  have hlt : (2 : ℝ) ^ q.bitSize < (z : ℝ) := by
    have h3 : c * (z : ℝ) = 254 * (c * (roundAway (s / c) : ℝ)) := by
      rw [hz', hq8]
      push_cast
      ring
    have h4 : c * 2 ^ q.bitSize < c * (z : ℝ) := by
      rw [hcb, h3]
      linarith
    exact lt_of_mul_lt_mul_left h4 c0.le
  have hlt' : (2 : ℤ) ^ q.bitSize < |z| := by
    have : (2 : ℤ) ^ q.bitSize < z := by exact_mod_cast hlt
    exact this.trans_le (le_abs_self z)
  refine ⟨hlt', ?_⟩
  unfold Requant.op
  rw [List.mapM_cons, if_neg (not_le.2 hlt')]
  rfl

/-- C71 fails for scales above one, because the code compares absolute values of logarithms: if the left scale is above one and the logarithm of the right one is smaller in absolute value by
eight, the right operand gets the multiplier zero. -/
theorem C71_dropped_false (bl : ℕ) (l r o : ℝ) (hl : 1 < l) (r0 : 0 < r) (hr : r < l / 2) (hlog : |Real.logb 2 r| + 8 ≤ Real.logb 2 l) (ho : |Real.logb 2 o| < Real.logb 2 l) :
    (addQuant bl l r o).rightMul = 0 ∧ (addQuant bl l r o).leftMul = 1 ∧ ∀ x y z, addEvaluate (addQuant bl l r o).leftMul (addQuant bl l r o).rightMul [x] [y] = some [z] → z = x := by
  have hll : |Real.logb 2 l| = Real.logb 2 l := abs_of_nonneg (Real.logb_nonneg (by norm_num) hl.le)
  have l0 : 0 < l := by linarith
  have e : addQuant bl l r o = ⟨1, 0, l, true⟩ := by
    unfold addQuant
    simp only [hll]
    rw [if_neg (by linarith)]
    have : addCommon bl (Real.logb 2 l) |Real.logb 2 r| |Real.logb 2 o| l o = (l, true) := by
      unfold addCommon
      rw [if_neg (by linarith), if_neg (by linarith), if_pos (by linarith)]
    rw [this]
    have e1 : roundAway (l / l) = 1 := by
      rw [div_self l0.ne']
      have := roundAway_int (K := ℝ) 1
      rwa [Int.cast_one] at this
    have e2 : roundAway (r / l) = 0 := by
      unfold roundAway
      rw [if_pos (by positivity)]
      rw [Int.floor_eq_iff]
      have : r / l < 1 / 2 := by rw [div_lt_div_iff₀ l0 (by norm_num)]; linarith
      have h0 : 0 ≤ r / l := by positivity
      constructor <;> push_cast <;> linarith
    rw [e1, e2]
  refine ⟨by rw [e], by rw [e], fun x y z hz => ?_⟩
  rw [e] at hz
  have := (addEvaluate_spec _ _ _ _ _ hz).2.1
  simpa using this

/-- Scales 1024, 2 and 16. -/
example : (1 : ℝ) < 1024 ∧ (2 : ℝ) < 1024 / 2 ∧ |Real.logb 2 2| + 8 ≤ Real.logb 2 1024 ∧ |Real.logb 2 16| < Real.logb 2 1024 := by
  have h1 : Real.logb 2 1024 = 10 := by
    rw [show (1024 : ℝ) = 2 ^ (10 : ℝ) by norm_num]; exact Real.logb_rpow (by norm_num) (by norm_num)
  have h2 : Real.logb 2 16 = 4 := by
    rw [show (16 : ℝ) = 2 ^ (4 : ℝ) by norm_num]; exact Real.logb_rpow (by norm_num) (by norm_num)
  have h3 : Real.logb 2 2 = 1 := Real.logb_self_eq_one (by norm_num)
  rw [h1, h2, h3]
  norm_num

/-! ### C72: reshaping padded tensors -/

/-- What it means that a reshape commutes with padding: padding and then reshaping with the padded layer gives the same as reshaping and then padding. -/
def CommutesWithPadding {α : Type} (r : Reshape) (t : Tensor α) (pad : α) : Prop :=
  ∃ u v, r.evaluate [t] = some [u] ∧ u.padNextPow2 pad = some v ∧ (∃ t', t.padNextPow2 pad = some t' ∧ r.toPadded.evaluate [t'] = some [v])

theorem evaluate_single {α : Type} (r : Reshape) (t : Tensor α) (d : List ℕ) (hd : r.newDims [t.shape] = some [d]) (hp : d.prod = t.shape.prod) :
    r.evaluate [t] = some [⟨d, t.data⟩] := by
  unfold Reshape.evaluate Reshape.internalOutput
  simp [hd, hp, Tensor.reshape]

/-- C72: splitting one dimension into two commutes with padding if the size of the second is a power of two (a row of heads of that size, say), and so does the converse, merging the two; for
all shapes, positions and tensors. Missing: other sizes, see `C72_false`. -/
theorem C72_split_partial {α : Type} (pad : α) (data : List α) (pre post : List ℕ) (a k : ℕ) (ha : 0 < a) (hpre : ∀ d ∈ pre, 0 < d) (hpost : ∀ d ∈ post, 0 < d)
    (hl : data.length = (pre ++ [a * 2 ^ k] ++ post).prod) (un : List ℕ) :
    CommutesWithPadding (.subspace pre.length (pre.length + 1) [a, 2 ^ k] un) ⟨pre ++ [a * 2 ^ k] ++ post, data⟩ pad ∧
    CommutesWithPadding (.subspace pre.length (pre.length + 2) [a * 2 ^ k] un) ⟨pre ++ [a, 2 ^ k] ++ post, data⟩ pad := by
  obtain ⟨out, h1, h2, h3⟩ := pad_split pad data pre post a k ha hpre hpost hl
  have hprod : (pre ++ [a, 2 ^ k] ++ post).prod = (pre ++ [a * 2 ^ k] ++ post).prod := by simp [mul_assoc]
  have hprod' : ((pre ++ [a, 2 ^ k] ++ post).map nextPow2).prod = ((pre ++ [a * 2 ^ k] ++ post).map nextPow2).prod := by
    simp [nextPow2_mul_pow a k ha, nextPow2_pow, mul_assoc]
  have sp : ∀ (A B mid new : List ℕ), splice A.length (A.length + mid.length) new (A ++ mid ++ B) = some (A ++ new ++ B) := by
    intro A B mid new
    unfold splice
    rw [if_pos (by simp), List.append_assoc A mid B, List.take_left, ← List.append_assoc A mid B, ← List.length_append, List.drop_left]
  constructor
  · refine ⟨_, _, evaluate_single _ _ (pre ++ [a, 2 ^ k] ++ post) ?_ hprod, h2, _, h1, evaluate_single _ _ ((pre ++ [a, 2 ^ k] ++ post).map nextPow2) ?_ hprod'⟩
    · have := sp pre post [a * 2 ^ k] [a, 2 ^ k]
      rw [List.length_singleton] at this
      simp only [List.append_assoc, List.singleton_append, List.cons_append, List.nil_append] at this
      simp [Reshape.newDims, this]
    · have := sp (pre.map nextPow2) (post.map nextPow2) [nextPow2 (a * 2 ^ k)] [nextPow2 a, nextPow2 (2 ^ k)]
      rw [List.length_map, List.length_singleton] at this
      simp only [List.append_assoc, List.singleton_append, List.cons_append, List.nil_append] at this
      simp [Reshape.newDims, Reshape.toPadded, this]
  · refine ⟨_, _, evaluate_single _ _ (pre ++ [a * 2 ^ k] ++ post) ?_ hprod.symm, h1, _, h2, evaluate_single _ _ ((pre ++ [a * 2 ^ k] ++ post).map nextPow2) ?_ hprod'.symm⟩
    · have := sp pre post [a, 2 ^ k] [a * 2 ^ k]
      simp only [List.length_cons, List.length_nil, zero_add, Nat.reduceAdd] at this
      simp only [List.append_assoc, List.singleton_append, List.cons_append, List.nil_append] at this
      simp [Reshape.newDims, this]
    · have := sp (pre.map nextPow2) (post.map nextPow2) [nextPow2 a, nextPow2 (2 ^ k)] [nextPow2 (a * 2 ^ k)]
      simp only [List.length_map, List.length_cons, List.length_nil, zero_add, Nat.reduceAdd] at this
      simp only [List.append_assoc, List.singleton_append, List.cons_append, List.nil_append] at this
      simp [Reshape.newDims, Reshape.toPadded, this]

theorem insertIdx_take_drop (s : List ℕ) (i : ℕ) (h : i ≤ s.length) : s.insertIdx i 1 = s.take i ++ 1 :: s.drop i := by
  induction s generalizing i with
  | nil =>
    have : i = 0 := by simpa using h
    subst this
    rfl
  | cons x xs ih =>
    cases i with
    | zero => rfl
    | succ i => rw [List.insertIdx_succ_cons, ih i (by simpa using h)]; rfl

/-- C72 for inserting a dimension of size one. -/
theorem C72_squeeze {α : Type} (pad : α) (data : List α) (shape : List ℕ) (index : ℕ) (hi : index < shape.length) (hpos : ∀ d ∈ shape, 0 < d)
    (hl : data.length = shape.prod) : CommutesWithPadding (.squeeze index) ⟨shape, data⟩ pad := by
  have hne : shape ≠ [] := by rintro rfl; simp at hi
  have hsplit := List.take_append_drop index shape
  obtain ⟨out, h1, h2, h3⟩ := pad_squeeze pad data (shape.take index) (shape.drop index) (by rw [hsplit]; exact hne)
    (fun d hd => hpos d (List.mem_of_mem_take hd)) (fun d hd => hpos d (List.mem_of_mem_drop hd)) (by rw [hsplit]; exact hl)
  have hins : ∀ (s : List ℕ), index < s.length → s.insertIdx index 1 = s.take index ++ 1 :: s.drop index := by
    intro s hs
    exact insertIdx_take_drop s index hs.le
  rw [hsplit] at h1 h3
  have n1 : nextPow2 1 = 1 := nextPow2_pow 0
  refine ⟨⟨shape.take index ++ 1 :: shape.drop index, data⟩, ⟨(shape.take index ++ 1 :: shape.drop index).map nextPow2, out⟩,
    evaluate_single _ _ _ ?_ ?_, h2, ⟨shape.map nextPow2, out⟩, h1, evaluate_single _ _ _ ?_ ?_⟩
  · simp [Reshape.newDims, hi, hins shape hi]
  · conv_rhs => rw [← hsplit]
    simp
  · have := hins (shape.map nextPow2) (by simpa using hi)
    simp [Reshape.newDims, Reshape.toPadded, hi, this, n1, List.map_take, List.map_drop]
  · conv_rhs => rw [← hsplit]
    simp [n1]

example : CommutesWithPadding (.subspace 1 2 [3, 4] []) (⟨[3, 12, 2], List.range 72⟩ : Tensor ℕ) 0 :=
  (C72_split_partial 0 (List.range 72) [3] [2] 3 2 (by decide) (by decide) (by decide) (by decide) []).1

/-- C72 fails for other sizes: a vector of `a·b` elements, reshaped to `a` rows of `b`, where `b` is not a power of two. The layer accepts both shapes, but the padded layer puts the padded
vector's elements into wrong rows: the result is not the padding of the unpadded result. -/
theorem C72_false (a b : ℕ) (ha : 2 ≤ a) (hb : b < nextPow2 b) (hb0 : 0 < b) (hprod : nextPow2 (a * b) = nextPow2 a * nextPow2 b) (un : List ℕ) :
    ¬ CommutesWithPadding (.subspace 0 1 [a, b] un) (⟨[a * b], List.range' 1 (a * b)⟩ : Tensor ℕ) 0 ∧
    (Reshape.subspace 0 1 [a, b] un).toPadded.internalOutput [[nextPow2 (a * b)]] = some [[nextPow2 a, nextPow2 b]] := by
  constructor
  · rintro ⟨u, v, h1, h2, t', h3, h4⟩
    have hab : 0 < a * b := Nat.mul_pos (by omega) hb0
    have e1 := evaluate_single (.subspace 0 1 [a, b] un) (⟨[a * b], List.range' 1 (a * b)⟩ : Tensor ℕ) [a, b] (by simp [Reshape.newDims, splice]) (by simp)
    rw [e1] at h1
    have hu : u = ⟨[a, b], List.range' 1 (a * b)⟩ := by simpa using h1.symm
    subst hu
    obtain ⟨o1, g1, g2, g3⟩ := padNextPow2_spec (⟨[a, b], List.range' 1 (a * b)⟩ : Tensor ℕ) 0 (by simp) (by simp; omega) (by simp)
    obtain ⟨o2, k1, k2, k3⟩ := padNextPow2_spec (⟨[a * b], List.range' 1 (a * b)⟩ : Tensor ℕ) 0 (by simp) (by simp; omega) (by simp)
    rw [g1] at h2
    rw [k1] at h3
    have hv : v = ⟨[a, b].map nextPow2, o1⟩ := (Option.some.inj h2).symm
    have ht : t' = ⟨[a * b].map nextPow2, o2⟩ := (Option.some.inj h3).symm
    subst hv ht
    have e2 := evaluate_single (Reshape.toPadded (.subspace 0 1 [a, b] un)) (⟨[a * b].map nextPow2, o2⟩ : Tensor ℕ) [nextPow2 a, nextPow2 b]
      (by simp [Reshape.newDims, Reshape.toPadded, splice]) (by simp [hprod])
    rw [e2] at h4
    have ho : o2 = o1 := by simpa using h4
    subst ho
    have na : a ≤ nextPow2 a := le_nextPow2 a
    have v1 := g3 [1, 0] (by simp only [List.map_cons, List.map_nil, inRange_cons_cons, inRange_nil, and_true]; omega)
    have hin : InRange [a, b] [1, 0] := by simp only [inRange_cons_cons, inRange_nil, and_true]; omega
    rw [if_pos hin] at v1
    have v2 := k3 [nextPow2 b] (by
      simp only [List.map_cons, List.map_nil, inRange_cons_cons, inRange_nil, and_true, hprod]
      nlinarith)
    simp only [List.map_cons, List.map_nil, flat, List.prod_cons, List.prod_nil, mul_one, one_mul, zero_mul, add_zero, zero_add] at v1 v2
    rw [v1] at v2
    have hblt : b < a * b := by nlinarith
    have w1 : (List.range' 1 (a * b)).getD b 0 = b + 1 := by
      rw [List.getD_eq_getElem?_getD, List.getElem?_range' hblt]
      simp; omega
    rw [w1] at v2
    split at v2
    · rename_i hr
      have hr' : nextPow2 b < a * b := by simpa [inRange_cons_cons, inRange_nil] using hr
      rw [List.getD_eq_getElem?_getD, List.getElem?_range' hr'] at v2
      simp at v2
      omega
    · omega
  · unfold Reshape.internalOutput
    simp [Reshape.newDims, Reshape.toPadded, splice, hprod]

/-- Six elements as two rows of three. -/
example : (3 : ℕ) < nextPow2 3 ∧ nextPow2 (2 * 3) = nextPow2 2 * nextPow2 3 ∧
    ((⟨[6], [1, 2, 3, 4, 5, 6]⟩ : Tensor ℕ).padNextPow2 0).bind (fun t => (Reshape.subspace 0 1 [2, 3] []).toPadded.evaluate [t]) = some [⟨[2, 4], [1, 2, 3, 4, 5, 6, 0, 0]⟩] ∧
    ((Reshape.subspace 0 1 [2, 3] []).evaluate [(⟨[6], [1, 2, 3, 4, 5, 6]⟩ : Tensor ℕ)]).map (List.map fun t => t.padNextPow2 0) = some [some ⟨[2, 4], [1, 2, 3, 0, 4, 5, 6, 0]⟩] := by
  decide +kernel

end Props
