import Verif.Props.SoftmaxStep
import Verif.Props.LayerNormProof
import Verif.Props.LayerNormStep
import Verif.Props.Softmax

/-!
C80: from the quantised evaluation of a softmax to an accepted proof.
-/

namespace Props
open Model Spec Lemmas

variable {F : Type} [Field F] [DecidableEq F] {C : Type}

theorem softmax_run_shifted (q : QuantSoftmax) (H n : ℕ) (data : List ℤ) (run : SoftmaxRun) (h : q.evaluate ⟨[H, n, n], data⟩ = some run) : run.shifted = q.shifted n data run.shift := by
  unfold QuantSoftmax.evaluate at h
  simp only [Option.bind_eq_bind, Option.bind_eq_some_iff] at h
  obtain ⟨final, h1, second, -, h⟩ := h
  obtain rfl : n = final := Option.some.inj h1
  split at h
  · simp only [Option.bind_eq_some_iff, Option.some.injEq] at h
    obtain ⟨shift, -, mask, -, masked, -, tv, -, rfl⟩ := h
    rfl
  · simp at h

theorem foldl_mul_prod : ∀ (l : List ℤ) (x : ℤ), l.foldl (· * ·) x = x * l.prod := by
  intro l
  induction l with
  | nil => intro x; simp
  | cons y l ih => intro x; rw [List.foldl_cons, ih, List.prod_cons, mul_assoc]

theorem prod_getD_cast : ∀ (l : List ℤ) (K : ℕ), l.length = K → ((List.range K).map fun c => ((l.getD c 0 : ℤ) : F)).prod = ((l.prod : ℤ) : F) := by
  intro l K hK
  subst hK
  have h : (List.range l.length).map (fun c => l.getD c 0) = l := by
    apply List.ext_getElem
    · simp
    · intro i h1 h2
      rw [List.getElem_map, List.getElem_range, List.getD_eq_getElem l 0 h2]
  conv_rhs => rw [← h]
  rw [Int.cast_list_prod, List.map_map]
  rfl

theorem getD_map_entries {α β : Type} (l : List α) (f : α → β) (d : α) (e : β) (w : ℕ) (hw : w < l.length) : (l.map f).getD w e = f (l.getD w d) := by
  rw [List.getD_eq_getElem (l := l.map f) _ (by simpa using hw), List.getElem_map, List.getD_eq_getElem l d hw]

/-- What the columns made by the evaluation of a softmax satisfy: the digits recombine to minus the masked scores, and the outputs are the products of the looked up values. -/
theorem softmax_columns (q : QuantSoftmax) (hbkm : 0 < q.bkm) (hscalar : 0 ≤ q.scalar) (hlog : ∀ ds, 0 ∈ ds → 0 ≤ q.logSum ds) (tv : ℕ) (htv : q.tableVars = some tv) (k a : ℕ)
    (data : List ℤ) (hd : data.length = 2 ^ a * 2 ^ k * 2 ^ k) :
    ∃ run, q.evaluate ⟨[2 ^ a, 2 ^ k, 2 ^ k], data⟩ = some run ∧ ((∀ x ∈ run.masked, x.natAbs < 2 ^ (16 + tv + q.zeroChunks * q.zeroVars)) →
      let toF : List ℤ → List F := List.map Int.cast
      let ein := run.entries.map fun e => (e.expIn : F)
      let eout := run.entries.map fun e => (e.expOut : F)
      let lo := run.entries.map fun e => (e.low : F)
      let hi := run.entries.map fun e => (e.high : F)
      let zs := (List.range q.zeroChunks).map fun c => (run.entries.map fun e => ((e.zeroIn.getD c 0 : ℕ) : F), run.entries.map fun e => ((e.zeroOut.getD c 0 : ℤ) : F))
      run.entries.length = 2 ^ (k + k + a) ∧ run.output.data.length = 2 ^ (k + k + a) ∧ run.shift.length = 2 ^ (k + a) ∧
      toF run.shifted = ((List.range (2 ^ (k + k + a))).map fun w => (q.scalar : F) * (toF data).getD w 0 + (toF run.shift).getD (w / 2 ^ k) 0) ∧
      (∀ w < 2 ^ (k + k + a), lo.getD w 0 + 2 ^ 8 * hi.getD w 0 + 2 ^ 16 * ein.getD w 0 + 2 ^ (16 + tv) * powerSum (2 ^ q.zeroVars) (zs.map fun z => z.1.getD w 0)
        = -(if w % 2 ^ k ≤ w / 2 ^ k % 2 ^ k then (q.scalar : F) * (toF data).getD w 0 + (toF run.shift).getD (w / 2 ^ k) 0 else (q.ninf : F))) ∧
      (∀ w < 2 ^ (k + k + a), (toF run.output.data).getD w 0 = eout.getD w 0 * (zs.map fun z => z.2.getD w 0).prod)) := by
  obtain ⟨run, sh, h1, h2, h3, h4, h5, h6, h7, h8⟩ := softmax_evaluate_spec q (2 ^ a) (2 ^ k) (Nat.two_pow_pos k) _ (Or.inl rfl) data hd tv htv
  refine ⟨run, h1, ?_⟩
  intro hcap toF ein eout lo hi zs
  have hsq : 2 ^ (k + k + a) = 2 ^ a * 2 ^ k * 2 ^ k := by rw [pow_add, pow_add]; ring
  have hel : run.entries.length = 2 ^ (k + k + a) := by
    have := congrArg List.length h6
    rw [h3, List.length_map] at this
    rw [hsq, this]
  have hml : run.masked.length = 2 ^ (k + k + a) := by rw [← hel, h5, List.length_map]
  have hK : zs.length = q.zeroChunks := by simp [zs]
  have hidx : ∀ w < 2 ^ (k + k + a), w / 2 ^ k / 2 ^ k < 2 ^ a ∧ w / 2 ^ k % 2 ^ k < 2 ^ k ∧ w % 2 ^ k < 2 ^ k ∧ (w / 2 ^ k / 2 ^ k * 2 ^ k + w / 2 ^ k % 2 ^ k) * 2 ^ k + w % 2 ^ k = w ∧
      w / 2 ^ k / 2 ^ k * 2 ^ k + w / 2 ^ k % 2 ^ k = w / 2 ^ k := by
    intro w hw
    refine ⟨?_, Nat.mod_lt _ (Nat.two_pow_pos k), Nat.mod_lt _ (Nat.two_pow_pos k), ?_, Nat.div_add_mod' _ _⟩
    · rw [Nat.div_div_eq_div_mul, ← pow_add]
      apply Nat.div_lt_of_lt_mul
      rw [← pow_add]; exact hw
    · rw [Nat.div_add_mod', Nat.div_add_mod']
  have hmask : ∀ w < 2 ^ (k + k + a), run.masked.getD w 0 = (if w % 2 ^ k ≤ w / 2 ^ k % 2 ^ k then data.getD w 0 * q.scalar + sh (w / 2 ^ k) else q.ninf) := by
    intro w hw
    obtain ⟨i1, i2, i3, i4, i5⟩ := hidx w hw
    have := (h8 _ _ _ i1 i2 i3).2
    rw [i4, i5] at this
    rw [List.getD_eq_getElem?_getD, this]
    rfl
  have hneg : ∀ w < 2 ^ (k + k + a), run.masked.getD w 0 ≤ 0 := by
    intro w hw
    rw [hmask w hw]
    obtain ⟨i1, i2, i3, i4, i5⟩ := hidx w hw
    split
    · rename_i hj
      have s1 := h7 _ _ i1 i2
      rw [i5] at s1
      have hmem : data.getD w 0 ∈ visible (2 ^ k) data (w / 2 ^ k / 2 ^ k) (w / 2 ^ k % 2 ^ k) := List.mem_map.2 ⟨w % 2 ^ k, List.mem_range.2 (by omega), by rw [i4]⟩
      rcases s1 with ⟨x, hx, hsx⟩ | ⟨hl, m, hm, hmax, hsx⟩
      · rw [hx] at hmem
        rw [List.mem_singleton.1 hmem, hsx]
        omega
      · have h4 := hlog ((visible (2 ^ k) data (w / 2 ^ k / 2 ^ k) (w / 2 ^ k % 2 ^ k)).map fun x => x - m) (List.mem_map.2 ⟨m, hm, sub_self m⟩)
        have h5 := mul_le_mul_of_nonneg_right (hmax _ hmem) hscalar
        rw [hsx]
        linarith
    · unfold QuantSoftmax.ninf
      have : 0 ≤ q.bkm / 2 ^ 16 := by omega
      nlinarith
  obtain ⟨ent, hent⟩ : ∃ ent : ℕ → SoftmaxEntry, ent = fun w => q.entry tv (run.masked.getD w 0) := ⟨_, rfl⟩
  have hcolg : ∀ (β : Type) (f : SoftmaxEntry → β) (d : β) (w : ℕ), w < 2 ^ (k + k + a) → (run.entries.map f).getD w d = f (ent w) := by
    intro β f d w hw
    rw [h5, List.map_map, getD_map_entries _ _ 0 d w (by rw [hml]; exact hw), hent]
    rfl
  have hdig : ∀ w < 2 ^ (k + k + a), _ := fun w hw => C79_digits q tv (run.masked.getD w 0) (hcap _ (by
    rw [List.getD_eq_getElem _ _ (by rw [hml]; exact hw)]
    exact List.getElem_mem _))
  have hshl : run.shift.length = 2 ^ (k + a) := by rw [h4]; simp [pow_add, mul_comm]
  have hshg : ∀ w < 2 ^ (k + k + a), (toF run.shift).getD (w / 2 ^ k) 0 = (sh (w / 2 ^ k) : F) := by
    intro w hw
    simp only [toF]
    rw [getD_intCast, h4, getD_range_map' _ _ _ _ ?_]
    apply Nat.div_lt_of_lt_mul
    rw [mul_comm, ← hsq]
    exact hw
  have hshifted : toF run.shifted = (List.range (2 ^ (k + k + a))).map fun w => (q.scalar : F) * (toF data).getD w 0 + (toF run.shift).getD (w / 2 ^ k) 0 := by
    rw [softmax_run_shifted q _ _ data run h1, h4, shifted_spec q _ _ (Nat.two_pow_pos k) data hd sh, ← hsq, ← h4]
    simp only [toF, List.map_map]
    apply List.map_congr_left
    intro w hw
    have := hshg w (List.mem_range.1 hw)
    simp only [toF] at this
    rw [this, getD_intCast]
    simp only [Function.comp_apply]
    push_cast
    ring
  refine ⟨hel, by rw [h3, hsq], hshl, hshifted, ?_, ?_⟩
  · intro w hw
    obtain ⟨d1, d2, d3, d4, d5, d6, d7, d8⟩ := hdig w hw
    have hz : zs.map (fun z => z.1.getD w 0) = (List.range q.zeroChunks).map fun c => (((ent w).zeroIn.getD c 0 : ℕ) : F) := by
      simp only [zs, List.map_map]
      apply List.map_congr_left
      intro c _
      exact hcolg _ _ _ w hw
    rw [hz, powerSum_chunks]
    simp only [ein, lo, hi]
    rw [hcolg _ _ _ w hw, hcolg _ _ _ w hw, hcolg _ _ _ w hw]
    have hm := hmask w hw
    have hr : (if w % 2 ^ k ≤ w / 2 ^ k % 2 ^ k then (q.scalar : F) * (toF data).getD w 0 + (toF run.shift).getD (w / 2 ^ k) 0 else (q.ninf : F)) = ((run.masked.getD w 0 : ℤ) : F) := by
      rw [hm, hshg w hw]
      simp only [toF]
      rw [getD_intCast]
      split
      · push_cast; ring
      · rfl
    rw [hr]
    have hab : run.masked.getD w 0 = -((run.masked.getD w 0).natAbs : ℤ) := by have := hneg w hw; omega
    rw [hab, d8, hent]
    push_cast
    have hsum : ∀ (g : ℕ → F) (K : ℕ), 2 ^ (16 + tv) * ((List.range K).map fun j => g j * (2 ^ q.zeroVars) ^ j).sum = ∑ x ∈ Finset.range K, 2 ^ (16 + tv + x * q.zeroVars) * g x := by
      intro g K
      induction K with
      | zero => simp
      | succ K ih =>
        rw [List.range_succ, List.map_append, List.sum_append, mul_add, ih, Finset.sum_range_succ]
        simp only [List.map_cons, List.map_nil, List.sum_cons, List.sum_nil, add_zero]
        rw [← pow_mul, pow_add _ (16 + tv) (K * q.zeroVars), mul_comm q.zeroVars]
        ring
    rw [hsum]
    ring
  · intro w hw
    have hz : zs.map (fun z => z.2.getD w 0) = (List.range q.zeroChunks).map fun c => (((ent w).zeroOut.getD c 0 : ℤ) : F) := by
      simp only [zs, List.map_map]
      apply List.map_congr_left
      intro c _
      exact hcolg _ _ _ w hw
    have ho : (toF run.output.data).getD w 0 = ((ent w).out : F) := by
      simp only [toF]
      rw [getD_intCast, h6, hcolg _ _ _ w hw]
    rw [hz, prod_getD_cast _ _ (by rw [hent]; simp [QuantSoftmax.entry]), ho]
    simp only [eout]
    rw [hcolg _ _ _ w hw, ← Int.cast_mul, ← foldl_mul_prod, hent]
    rfl

/-- C80, from inference to proof, part. Let `q` be a quantised softmax with at most three zero chunks, a nonnegative scalar and a nonnegative logarithm, and evaluate it on `2^a` heads of `2^k` by `2^k` scores, with at least
four rows in all heads. If all masked scores are within the range of the tables, then the columns made by the evaluation lead to a proof of the true claim on its output, which is accepted, and the claims handed on are true of the
scores and the columns, unless a challenge is small or the verifier divides by zero. Missing: masked scores beyond the tables, more chunks and fewer rows, see `C79_wrap_false`, `C80_many_chunks_false` and `C80_few_rows_false`. -/
theorem C80_inference_partial (T : Transcript F) (threads : ℕ) (ht : 0 < threads) (p : ℕ) [CharP F p] (q : QuantSoftmax) (hZ : q.zeroChunks ≤ 3) (hchar : ∀ k : ℕ, 0 < k → k ≤ q.zeroChunks + 3 → (k : F) ≠ 0)
    (hs : q.scalar.natAbs ≤ p) (hb : q.ninf.natAbs ≤ p) (hbkm : 0 < q.bkm) (hscalar : 0 ≤ q.scalar) (hlog : ∀ ds, 0 ∈ ds → 0 ≤ q.logSum ds) (tv : ℕ) (htv : q.tableVars = some tv) (k a : ℕ) (hrows : 2 ≤ k + a)
    (data : List ℤ) (hd : data.length = 2 ^ a * 2 ^ k * 2 ^ k) (lp : List F) (hlp : lp.length = k + k + a) (cs : List C) (hcs : cs.length = 5 + 2 * q.zeroChunks) (chals : List (F × F))
    (hch : (if q.zeroChunks = 0 then 3 else 4) ≤ chals.length) (ts : T.State) :
    ∃ run, q.evaluate ⟨[2 ^ a, 2 ^ k, 2 ^ k], data⟩ = some run ∧ ((∀ x ∈ run.masked, x.natAbs < 2 ^ (16 + tv + q.zeroChunks * q.zeroVars)) →
      let toF : List ℤ → List F := List.map Int.cast
      let ein := run.entries.map fun e => (e.expIn : F)
      let eout := run.entries.map fun e => (e.expOut : F)
      let lo := run.entries.map fun e => (e.low : F)
      let hi := run.entries.map fun e => (e.high : F)
      let zs := (List.range q.zeroChunks).map fun c => (run.entries.map fun e => ((e.zeroIn.getD c 0 : ℕ) : F), run.entries.map fun e => ((e.zeroOut.getD c 0 : ℤ) : F))
      let tril := (List.range (2 ^ (k + k + a))).map fun w => if w % 2 ^ k ≤ w / 2 ^ k % 2 ^ k then (1 : F) else 0
      let bias := (List.range (2 ^ (k + k + a))).map fun w => if w % 2 ^ k ≤ w / 2 ^ k % 2 ^ k then 0 else (q.ninf : F)
      let last : Claim F := ⟨lp, mle (toF run.output.data) lp⟩
      ∃ proof pt ts', proveSoftmaxStep threads T (k + k + a) ein eout lo hi zs (toF run.output.data) (2 ^ k) (toF run.shift) (toF run.shifted) tril bias (k + a) cs chals last ts
          = some (proof, ⟨pt, q.scalar * mle (toF data) pt⟩, ts') ∧
        pt.length = k + k + a ∧ proof.mask.point = pt ∧ proof.commitments = cs ∧
        ((∀ l ∈ proof.logupProofs, ∀ sp ∈ l.sumcheckProofs, ∀ y ∈ sp.point, ∀ j : ℕ, j ≤ 3 → y ≠ (j : F)) → (∀ r ∈ proof.accumulation.point ++ pt, ∀ j : ℕ, j ≤ q.zeroChunks + 3 → r ≠ (j : F)) →
          eqPoly pt proof.accumulation.point ≠ 0 → mle tril pt ≠ 0 → (q.scalar : F) ≠ 0 →
          verifySoftmax T p ⟨q.scalar, q.bkm, q.zeroChunks, q.zeroVars⟩ [2 ^ a, 2 ^ k, 2 ^ k] chals last proof ts
            = some (⟨pt, mle (toF data) pt⟩, (let sp := proof.accumulation.point
              cs.zip ([⟨sp, mle ein sp⟩, ⟨sp, mle eout sp⟩, ⟨sp, mle lo sp⟩, ⟨sp, mle hi sp⟩, ⟨pt.drop k, mle (toF run.shift) (pt.drop k)⟩] ++ zs.flatMap fun z => [⟨sp, mle z.1 sp⟩, ⟨sp, mle z.2 sp⟩])), ts'))) := by
  obtain ⟨run, h1, h2⟩ := softmax_columns (F := F) q hbkm hscalar hlog tv htv k a data hd
  refine ⟨run, h1, ?_⟩
  intro hcap toF ein eout lo hi zs tril bias last
  obtain ⟨hel, hol, hshl, hshifted, hrel, hout⟩ := h2 hcap
  have hK : zs.length = q.zeroChunks := by simp [zs]
  obtain ⟨proof, pt, ts', g1, g2, g3, g4, g5⟩ := C80_complete_partial T threads ht p zs (by omega) (by rw [hK]; exact hchar) q.scalar q.bkm hs hb q.zeroVars tv k a (k + k + a) (fun _ => ceilLog2_spec htv) rfl hrows
    ein eout lo hi (toF run.shift) (toF data) (by simp [ein, hel]) (by simp [eout, hel]) (by simp [lo, hel]) (by simp [hi, hel]) (by
      intro z hz
      obtain ⟨c, -, rfl⟩ := List.mem_map.1 hz
      simp [hel]) (by simp only [toF, List.length_map]; rw [hshl]; congr 1; omega) (q.ninf : F) rfl hrel (toF run.output.data) (by simp [toF, hol]) hout lp hlp [2 ^ a] cs (by rw [hK]; exact hcs) chals (by
      have : zs = [] ↔ q.zeroChunks = 0 := by rw [← List.length_eq_zero_iff, hK]
      simp only [this]
      exact hch) ts
  rw [hK] at g5
  rw [← hshifted] at g1
  rw [show k + k + a - k = k + a by omega] at g1
  exact ⟨proof, pt, ts', g1, g2, g3, g4, g5⟩

/-- Two heads of two rows for the layer `softmaxExample`. -/
def exSoftmaxData : List ℤ := [3, 7, 2, -9, -5, 4, -30, 6]

set_option synthInstance.maxSize 1000 in
/-- The hypotheses hold of it; the rows are evaluated, the proof is made from the columns of the evaluation and accepted with the true claim on the scores, and no challenge of its sumchecks is small. -/
example : (softmaxExample.tableVars = some 3 ∧ 0 ≤ softmaxExample.scalar ∧ 0 < softmaxExample.bkm ∧ softmaxExample.zeroChunks ≤ 3 ∧ softmaxExample.scalar.natAbs ≤ 524287 ∧ softmaxExample.ninf.natAbs ≤ 524287) ∧
    ((softmaxExample.evaluate ⟨[2, 2, 2], exSoftmaxData⟩).map fun run =>
      (run.output.data, run.masked, run.entries.map fun e => e.zeroIn, run.masked.all fun x => decide (x.natAbs < 2 ^ (16 + 3 + softmaxExample.zeroChunks * softmaxExample.zeroVars))))
      = some ([4096, 0, 4096, 0, 4096, 0, 0, 4096], [0, -393216, -32768, -393216, 0, -393216, -1212416, -32768], [[0], [0], [0], [0], [0], [0], [2], [0]], true) ∧
    ((softmaxExample.evaluate ⟨[2, 2, 2], exSoftmaxData⟩).bind fun run =>
      (proveSoftmaxStep 1 (tape (ZMod 524287)) 3 (run.entries.map fun e => (e.expIn : ZMod 524287)) (run.entries.map fun e => (e.expOut : ZMod 524287)) (run.entries.map fun e => (e.low : ZMod 524287))
          (run.entries.map fun e => (e.high : ZMod 524287)) [(run.entries.map fun e => ((e.zeroIn.getD 0 0 : ℕ) : ZMod 524287), run.entries.map fun e => ((e.zeroOut.getD 0 0 : ℤ) : ZMod 524287))]
          (run.output.data.map Int.cast) (2 ^ 1) (run.shift.map Int.cast) (run.shifted.map Int.cast) ((List.range 8).map fun w => if w % 2 ≤ w / 2 % 2 then 1 else 0)
          ((List.range 8).map fun w => if w % 2 ≤ w / 2 % 2 then 0 else (softmaxExample.ninf : ZMod 524287)) 2 ["in", "out", "lo", "hi", "shift", "chunk", "zero"] [(20, 100), (20, 1), (20, 1), (20, 1000)]
          ⟨[21, 22, 23], mle (run.output.data.map Int.cast) [21, 22, 23]⟩ exStepTape).bind fun r =>
        (verifySoftmax (tape (ZMod 524287)) 524287 ⟨softmaxExample.scalar, softmaxExample.bkm, 1, 4⟩ [2, 2, 2] [(20, 100), (20, 1), (20, 1), (20, 1000)] ⟨[21, 22, 23], mle (run.output.data.map Int.cast) [21, 22, 23]⟩ r.1
            exStepTape).map fun v =>
          (r.1.logupProofs.all (fun l => l.sumcheckProofs.all fun sp => sp.point.all fun y => decide (4 < y.val)), (r.1.accumulation.point ++ r.1.mask.point).all (fun y => decide (4 < y.val)),
            decide (v.1.eval = mle (exSoftmaxData.map Int.cast) v.1.point), v.2.1.length))
      = some (true, true, true, 7) := by
  refine ⟨?_, ?_, ?_⟩ <;> decide +kernel

end Props
