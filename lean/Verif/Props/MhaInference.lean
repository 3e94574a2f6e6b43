import Verif.Props.SoftmaxInference
import Verif.Props.MhaProof
import Verif.Props.Mha

/-!
C82: from the quantised evaluation of multi-head attention to an accepted proof.
-/

namespace Props
open Model Spec Lemmas

variable {F : Type} [Field F] [DecidableEq F] {C : Type}

theorem headEntry_cast (H d : ℕ) (m : List ℤ) (i h c : ℕ) : headEntry H d (m.map (Int.cast : ℤ → F)) i h c = ((headEntry H d m i h c : ℤ) : F) := by
  unfold headEntry
  rw [getD_intCast]

theorem scores_cast (H d n : ℕ) (q k : List ℤ) : (scores H d n q k).map (Int.cast : ℤ → F) = scores H d n (q.map Int.cast) (k.map Int.cast) := by
  unfold scores
  rw [List.map_map]
  apply List.map_congr_left
  intro w _
  simp only [Function.comp_apply, score, headEntry_cast]
  push_cast
  rfl

/-- C82, from inference to proof, part. Evaluate an attention layer of `2^H` heads of dimension `2^d` on `2^n` positions, with at least four rows in all heads together and a softmax as in `C80_inference_partial`. If all masked scores are
within the range of the tables, then the columns made by the evaluation lead to a proof of the true claim on its output, with true claims on the three inputs, which the verifier accepts, handing on the same claims and true claims on the
columns, unless a challenge is small or the verifier divides by zero. Missing: masked scores beyond the tables, more chunks and fewer rows, see `C79_wrap_false`, `C82_many_chunks_false` and `C82_few_rows_false`. -/
theorem C82_inference_partial (T : Transcript F) (threads : ℕ) (ht : 0 < threads) (p : ℕ) [CharP F p] (sm : QuantSoftmax) (hZ : sm.zeroChunks ≤ 3) (hchar : ∀ k : ℕ, 0 < k → k ≤ sm.zeroChunks + 3 → (k : F) ≠ 0)
    (hs : sm.scalar.natAbs ≤ p) (hb : sm.ninf.natAbs ≤ p) (hbkm : 0 < sm.bkm) (hscalar : 0 ≤ sm.scalar) (hlog : ∀ ds, 0 ∈ ds → 0 ≤ sm.logSum ds) (tv : ℕ) (htv : sm.tableVars = some tv) (n H d : ℕ) (hnH : 2 ≤ n + H)
    (q k v : List ℤ) (hq : q.length = 2 ^ n * (2 ^ H * 2 ^ d)) (hk : k.length = 2 ^ n * (2 ^ H * 2 ^ d)) (hv : v.length = 2 ^ n * (2 ^ H * 2 ^ d))
    (P : List F) (hP : P.length = H + n + d) (cs : List C) (hcs : cs.length = 5 + 2 * sm.zeroChunks) (chals : List (F × F)) (hch : (if sm.zeroChunks = 0 then 3 else 4) ≤ chals.length) (ts : T.State) :
    let two := [2 ^ n, 2 ^ H * 2 ^ d]
    let three := [2 ^ n, 2 ^ H, 2 ^ d]
    ∃ out sc run, (Mha.new (2 ^ H) (2 ^ d) sm).evaluate [⟨two, q⟩, ⟨two, k⟩, ⟨two, v⟩] = some (⟨two, out⟩, sc, run) ∧ ((∀ x ∈ run.masked, x.natAbs < 2 ^ (16 + tv + sm.zeroChunks * sm.zeroVars)) →
      let toF : List ℤ → List F := List.map Int.cast
      let ein := run.entries.map fun e => (e.expIn : F)
      let eout := run.entries.map fun e => (e.expOut : F)
      let lo := run.entries.map fun e => (e.low : F)
      let hi := run.entries.map fun e => (e.high : F)
      let zs := (List.range sm.zeroChunks).map fun c => (run.entries.map fun e => ((e.zeroIn.getD c 0 : ℕ) : F), run.entries.map fun e => ((e.zeroOut.getD c 0 : ℤ) : F))
      let bias := (List.range (2 ^ (n + n + H))).map fun w => if w % 2 ^ n ≤ w / 2 ^ n % 2 ^ n then 0 else (sm.ninf : F)
      ∃ proof cq ck cv ts', proveMha threads T ⟨three, toF q⟩ ⟨three, toF k⟩ ⟨three, toF v⟩ ⟨[2 ^ H, 2 ^ n, 2 ^ n], toF run.output.data⟩ three (n + n + H) ein eout lo hi zs (toF run.shift) (toF run.shifted)
          (causal (n + n + H) n) bias (n + H) cs chals ⟨P, mle (toF out) P⟩ ts = some (proof, (⟨cq, mle (toF q) cq⟩, ⟨ck, mle (toF k) ck⟩, ⟨cv, mle (toF v) cv⟩), ts') ∧
        ((∀ l ∈ proof.softmax.logupProofs, ∀ sp ∈ l.sumcheckProofs, ∀ y ∈ sp.point, ∀ j : ℕ, j ≤ 3 → y ≠ (j : F)) →
          (∀ r ∈ proof.finalMul.sumcheck.point ++ proof.softmax.accumulation.point ++ proof.softmax.mask.point ++ proof.qk.sumcheck.point, ∀ j : ℕ, j ≤ sm.zeroChunks + 3 → r ≠ (j : F)) →
          eqPoly proof.softmax.mask.point proof.softmax.accumulation.point ≠ 0 → mle (causal (n + n + H) n) proof.softmax.mask.point ≠ 0 → (sm.scalar : F) ≠ 0 →
          verifyMha T p ⟨sm.scalar, sm.bkm, sm.zeroChunks, sm.zeroVars⟩ three three three [2 ^ H, 2 ^ n, 2 ^ n] three (d + H) (n + H) chals ⟨P, mle (toF out) P⟩ proof ts
            = some ((⟨cq, mle (toF q) cq⟩, ⟨ck, mle (toF k) ck⟩, ⟨cv, mle (toF v) cv⟩), (let sp := proof.softmax.accumulation.point
              cs.zip ([⟨sp, mle ein sp⟩, ⟨sp, mle eout sp⟩, ⟨sp, mle lo sp⟩, ⟨sp, mle hi sp⟩, ⟨proof.softmax.mask.point.drop n, mle (toF run.shift) (proof.softmax.mask.point.drop n)⟩]
                ++ zs.flatMap fun z => [⟨sp, mle z.1 sp⟩, ⟨sp, mle z.2 sp⟩])), ts'))) := by
  intro two three
  obtain ⟨out, weights, run, e1, e2, e3, e4, e5, e6⟩ := C81_evaluate (2 ^ H) (2 ^ d) (2 ^ n) (Nat.two_pow_pos H) (Nat.two_pow_pos n) sm tv htv q k v hq hk hv
  obtain ⟨run', h1, h2⟩ := softmax_columns (F := F) sm hbkm hscalar hlog tv htv n H (scores (2 ^ H) (2 ^ d) (2 ^ n) q k) (scores_length ..)
  rw [e2, Option.some.injEq] at h1
  subst h1
  refine ⟨out, _, run, e1, ?_⟩
  intro hcap toF ein eout lo hi zs bias
  obtain ⟨hel, hol, hshl, hshifted, hrel, hout⟩ := h2 hcap
  have hK : zs.length = sm.zeroChunks := by simp [zs]
  have hw : run.output.data = weights := by rw [e3]
  have hsq : 2 ^ (n + n + H) = 2 ^ H * 2 ^ n * 2 ^ n := by rw [pow_add, pow_add]; ring
  rw [scores_cast] at hshifted
  obtain ⟨proof, cq, ck, cv, ts', g1, g2⟩ := C82_complete_partial T threads ht p zs (by omega) (by rw [hK]; exact hchar) sm.scalar sm.bkm hs hb sm.zeroVars tv n H d (fun _ => ceilLog2_spec htv) hnH
    (toF q) (toF k) (toF v) (by simp [toF, hq]) (by simp [toF, hk]) (by simp [toF, hv]) ein eout (toF run.output.data) lo hi (toF run.shift) (by simp [ein, hel]) (by simp [eout, hel]) (by simp [toF, hol])
    (by simp [lo, hel]) (by simp [hi, hel]) (by
      intro z hz
      obtain ⟨c, -, rfl⟩ := List.mem_map.1 hz
      simp [hel]) (by simp [toF, hshl]) (sm.ninf : F) rfl (by
      intro h i j hh hi' hj w
      have hj0 := Nat.two_pow_pos n
      have w1 : w % 2 ^ n = j := mul_add_mod' hj
      have w2 : w / 2 ^ n = h * 2 ^ n + i := mul_add_div' hj
      have w3 : (h * 2 ^ n + i) % 2 ^ n = i := mul_add_mod' hi'
      have hwlt : w < 2 ^ (n + n + H) := by
        rw [hsq]
        have a1 : h * 2 ^ n + i + 1 ≤ 2 ^ H * 2 ^ n := by nlinarith
        simp only [w]
        nlinarith
      have := hrel w hwlt
      rw [this, w1, w2, w3, scores_cast, scores_getD _ _ _ _ _ hh hi' hj]
      rfl) hout chals (by
      have : zs = [] ↔ sm.zeroChunks = 0 := by rw [← List.length_eq_zero_iff, hK]
      simp only [this]
      exact hch) cs (by rw [hK]; exact hcs) (toF out) (by simp [toF, e4]) (by
      intro i h c hi' hh hc
      simp only [toF]
      rw [headEntry_cast, e6 i h c hi' hh hc, hw]
      push_cast
      apply Finset.sum_congr rfl
      intro j _
      rw [headEntry_cast, getD_intCast]) P hP ts
  rw [hK] at g2
  rw [← hshifted] at g1
  exact ⟨proof, cq, ck, cv, ts', g1, g2⟩

/-- Queries, keys and values of two heads of dimension two at two positions. -/
def exMhaQ : List ℤ := [3, 1, -2, 4, 0, 2, 1, 1]

/-- See `exMhaQ`. -/
def exMhaK : List ℤ := [1, 2, 0, -1, 3, -4, 2, 5]

/-- See `exMhaQ`. -/
def exMhaV : List ℤ := [7, -3, 2, 8, 5, 1, -6, 4]

/-- Challenges for the example below. -/
def exMhaTape : List (ZMod 524287) := exStepTape.drop 1 ++ [19, 26, 33, 41, 27, 14, 16, 25]

set_option synthInstance.maxSize 1000 in
/-- With the softmax `softmaxExample`: the layer is evaluated, the masked scores are within the tables, the proof is made from the columns of the evaluation and accepted with the true claims on queries, keys and values. -/
example : (((Mha.new 2 2 softmaxExample).evaluate [⟨[2, 4], exMhaQ⟩, ⟨[2, 4], exMhaK⟩, ⟨[2, 4], exMhaV⟩]).map fun r =>
      (r.2.1.data, r.2.2.masked.all fun x => decide (x.natAbs < 2 ^ (16 + 3 + softmaxExample.zeroChunks * softmaxExample.zeroVars)))) = some ([5, 5, 4, -8, -4, 16, -1, 7], true) ∧
    (((Mha.new 2 2 softmaxExample).evaluate [⟨[2, 4], exMhaQ⟩, ⟨[2, 4], exMhaK⟩, ⟨[2, 4], exMhaV⟩]).bind fun r =>
      let run := r.2.2
      let last : Claim (ZMod 524287) := ⟨[21, 22, 23], mle (r.1.data.map Int.cast) [21, 22, 23]⟩
      (proveMha 1 (tape (ZMod 524287)) ⟨[2, 2, 2], exMhaQ.map Int.cast⟩ ⟨[2, 2, 2], exMhaK.map Int.cast⟩ ⟨[2, 2, 2], exMhaV.map Int.cast⟩ ⟨[2, 2, 2], run.output.data.map Int.cast⟩ [2, 2, 2] 3
          (run.entries.map fun e => (e.expIn : ZMod 524287)) (run.entries.map fun e => (e.expOut : ZMod 524287)) (run.entries.map fun e => (e.low : ZMod 524287))
          (run.entries.map fun e => (e.high : ZMod 524287)) [(run.entries.map fun e => ((e.zeroIn.getD 0 0 : ℕ) : ZMod 524287), run.entries.map fun e => ((e.zeroOut.getD 0 0 : ℤ) : ZMod 524287))]
          (run.shift.map Int.cast) (run.shifted.map Int.cast) (causal 3 1) ((List.range 8).map fun w => if w % 2 ≤ w / 2 % 2 then 0 else (softmaxExample.ninf : ZMod 524287)) 2
          ["in", "out", "lo", "hi", "shift", "chunk", "zero"] [(20, 100), (20, 1), (20, 1), (20, 1000)] last exMhaTape).bind fun m =>
        (verifyMha (tape (ZMod 524287)) 524287 ⟨softmaxExample.scalar, softmaxExample.bkm, 1, 4⟩ [2, 2, 2] [2, 2, 2] [2, 2, 2] [2, 2, 2] [2, 2, 2] 2 2 [(20, 100), (20, 1), (20, 1), (20, 1000)] last m.1 exMhaTape).map fun c =>
          (decide (c.1.1.eval = mle (exMhaQ.map Int.cast) c.1.1.point), decide (c.1.2.1.eval = mle (exMhaK.map Int.cast) c.1.2.1.point), decide (c.1.2.2.eval = mle (exMhaV.map Int.cast) c.1.2.2.point), c.2.1.length))
      = some (true, true, true, 7) := by
  refine ⟨?_, ?_⟩ <;> decide +kernel

end Props
