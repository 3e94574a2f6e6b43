import Verif.Lemmas.TokenLayers

/-!
C74: learned positional encodings.
-/

namespace Props
open Spec Model Lemmas

/-- C74, inference: the layer returns, entry by entry, the scaled sum of the input and of the first rows of the matrix. -/
theorem C74_evaluate (a b : ℤ) (rows cols : ℕ) (pos x out : List ℤ) (h : positionalEvaluate a b rows cols pos x = some out) :
    x.length = rows * cols ∧ rows * cols ≤ pos.length ∧ out.length = x.length ∧ ∀ i < x.length, out.getD i 0 = x.getD i 0 * a + pos.getD i 0 * b := by
  unfold positionalEvaluate at h
  split at h
  · rename_i hle
    obtain ⟨h1, rfl, -⟩ := addEvaluate_spec a b x (pos.take (rows * cols)) out h
    rw [List.length_take, min_eq_left hle] at h1
    refine ⟨h1, hle, by simp [h1, hle], fun i hi => ?_⟩
    have hp : i < pos.length := by omega
    have ht : i < (pos.take (rows * cols)).length := by rw [List.length_take]; omega
    simp only [List.getD_eq_getElem?_getD, List.getElem?_map, List.getElem?_zip_eq_some, List.getElem?_zipWith, List.getElem?_take,
      if_pos (show i < rows * cols by omega), List.getElem?_eq_getElem hi, List.getElem?_eq_getElem hp, Option.getD_some]
  · simp at h

example : positionalEvaluate 2 3 1 2 [1, 2, 3, 4] [10, 20] = some [23, 46] := by decide

variable {F : Type} [Field F] [DecidableEq F]

theorem verifyPositionalOne_eq (T : Transcript F) (a b : F) (nv : ℕ) (last : Claim F) (proof : PositionalProof F) (ts : T.State) :
    verifyPositionalOne T a b nv last proof ts =
      if proof.add.leftEval * a + proof.add.rightEval * b = last.eval ∧ last.point.length ≤ nv then
        let ex := extraCoordinates T (nv - last.point.length) last ⟨last.point, proof.add.rightEval⟩ ts
        (positionalClaim (last.point ++ ex.1) proof.add.rightEval proof.subEvals).map fun claim => (⟨last.point, proof.add.leftEval⟩, claim, ex.2)
      else none := by
  unfold verifyPositionalOne verifyAdd
  by_cases h1 : proof.add.leftEval * a + proof.add.rightEval * b = last.eval
  · by_cases h2 : last.point.length ≤ nv
    · simp only [h1, h2, if_true, and_self, Bool.false_eq_true, if_false, Option.bind_eq_bind, Option.bind_some, twoClaims]
      rcases extraCoordinates T (nv - last.point.length) last ⟨last.point, proof.add.rightEval⟩ ts with ⟨ex, ts'⟩
      simp only
      cases positionalClaim (last.point ++ ex) proof.add.rightEval proof.subEvals <;> rfl
    · simp [h1, h2, twoClaims]
  · simp [h1]

theorem verifyPositional_single (T : Transcript F) (a b : F) (nv : ℕ) (last : Claim F) (proof : PositionalProof F) (ts : T.State) :
    verifyPositional T a b nv [last] [proof] ts = (verifyPositionalOne T a b nv last proof ts).map fun x => ([x.1], some x.2.1, x.2.2) := by
  unfold verifyPositional
  simp only [List.length_singleton, if_true, List.zip_cons_cons, List.zip_nil_left, List.foldlM_cons, List.foldlM_nil]
  cases verifyPositionalOne T a b nv last proof ts <;> rfl

/-- C74, honest proofs: for every positional matrix of `2^nv` entries, every input of `2^n` entries and the true claim on the scaled sum, the prover produces a proof, which the verifier accepts with
the true claim on the input and a true claim on the whole positional matrix. -/
theorem C74_complete (T : Transcript F) (a b : F) (nv n : ℕ) (hn : n ≤ nv) (pos x : List F) (hpos : pos.length = 2 ^ nv) (hx : x.length = 2 ^ n)
    (r : List F) (hr : r.length = n) (ts : T.State) :
    ∃ proof pt ts', pt.length = nv ∧ r <+: pt ∧
      let last : Claim F := ⟨r, mle (List.zipWith (fun u v => u * a + v * b) x (pos.take (2 ^ n))) r⟩
      provePositional T a b nv n pos x last ts = some (proof, ⟨r, mle x r⟩, ⟨pt, mle pos pt⟩, ts') ∧
      verifyPositional T a b nv [last] [proof] ts = some ([⟨r, mle x r⟩], some ⟨pt, mle pos pt⟩, ts') := by
  subst hr
  have htl : (pos.take (2 ^ r.length)).length = 2 ^ r.length := by
    rw [List.length_take, hpos]; exact min_eq_left (Nat.pow_le_pow_right (by omega) hn)
  have hout : mle (List.zipWith (fun u v => u * a + v * b) x (pos.take (2 ^ r.length))) r = mle x r * a + mle (pos.take (2 ^ r.length)) r * b :=
    mle_zipWith a b x _ r hx htl
  obtain ⟨last, hlast⟩ : ∃ last : Claim F, last = ⟨r, mle (List.zipWith (fun u v => u * a + v * b) x (pos.take (2 ^ r.length))) r⟩ := ⟨_, rfl⟩
  obtain ⟨sub, hsub⟩ : ∃ sub : Claim F, sub = ⟨r, mle (pos.take (2 ^ r.length)) r⟩ := ⟨_, rfl⟩
  rcases hex : extraCoordinates T (nv - r.length) last sub ts with ⟨extra, ts'⟩
  have hel : extra.length = nv - r.length := by
    have := extraCoordinates_length T (nv - r.length) last sub ts
    rwa [hex] at this
  have hpl : pos.length = 2 ^ (r.length + extra.length) := by rw [hel, hpos]; congr 1; omega
  have hsm := subMatrixEvals_eq pos r extra hpl
  have hpc : positionalClaim (r ++ extra) (mle (pos.take (2 ^ r.length)) r) ((List.range extra.length).map fun i =>
      mle ((pos.drop (2 ^ (r.length + i))).take (2 ^ (r.length + i))) ((r ++ extra).take (r.length + i))) = some ⟨r ++ extra, mle pos (r ++ extra)⟩ := by
    unfold positionalClaim
    rw [if_pos (by simp)]
    have hd : (r ++ extra).drop ((r ++ extra).length - ((List.range extra.length).map fun i =>
      mle ((pos.drop (2 ^ (r.length + i))).take (2 ^ (r.length + i))) ((r ++ extra).take (r.length + i))).length) = extra := by simp
    rw [hd, fold_blocks pos r extra hpl.ge]
    simp
  refine ⟨⟨(List.range extra.length).map fun i => mle ((pos.drop (2 ^ (r.length + i))).take (2 ^ (r.length + i))) ((r ++ extra).take (r.length + i)), ⟨mle x r, mle (pos.take (2 ^ r.length)) r⟩⟩, r ++ extra, ts', by simp [hel]; omega, List.prefix_append _ _, ?_, ?_⟩
  · rw [← hlast]
    unfold provePositional proveAdd
    have h1 : evaluateTensor x r = some (mle x r) := evaluateTensor_eq x r hx
    have h2 : evaluateTensor (pos.take x.length) r = some (mle (pos.take (2 ^ r.length)) r) := by
      rw [hx]; exact evaluateTensor_eq _ r htl
    have h3 : last.point = r := by rw [hlast]
    have hcond : r.length ≤ nv ∧ x.length * 2 ^ (nv - r.length) = pos.length := by
      refine ⟨hn, ?_⟩
      rw [hx, hpos, ← pow_add]; congr 1; omega
    simp only [h3, h1, h2, Option.bind_eq_bind, Option.bind_some, Bool.false_eq_true, if_false, twoClaims, if_pos hcond]
    rw [← hsub, hex]
    simp only [hsub]
    rw [← hel, hsm]
    simp only [Option.bind_some, hpc]
  · rw [verifyPositional_single, verifyPositionalOne_eq, ← hlast, if_pos ⟨by rw [hlast, hout], by rw [hlast]; exact hn⟩]
    simp only
    have h3 : last.point = r := by rw [hlast]
    rw [h3, ← hsub, hex]
    simp only [hpc]
    rfl

/-- C74, soundness. Partial: the theorem needs the sub-matrix evaluations in the proof to be the true ones, which nothing enforces (`C74_forged_false`), and a single input (`C74_overwritten_false`).
Then an accepted output claim whose claims on the input and on the positional matrix are true is true, unless a sampled coordinate is 1. -/
theorem C74_sound_partial (T : Transcript F) (a b : F) (nv n : ℕ) (pos x : List F) (hpos : pos.length = 2 ^ nv) (hx : x.length = 2 ^ n)
    (last : Claim F) (hr : last.point.length = n) (proof : PositionalProof F) (ts ts' : T.State) (input claim : Claim F)
    (h : verifyPositional T a b nv [last] [proof] ts = some ([input], some claim, ts'))
    (hsub : proof.subEvals = (List.range (nv - n)).map fun i => mle ((pos.drop (2 ^ (n + i))).take (2 ^ (n + i))) (claim.point.take (n + i)))
    (hin : input.eval = mle x input.point) (hclaim : claim.eval = mle pos claim.point) :
    claim.point.take n = last.point ∧
    (last.eval = mle (List.zipWith (fun u v => u * a + v * b) x (pos.take (2 ^ n))) last.point ∨ 1 ∈ claim.point.drop n) := by
  subst hr
  rw [verifyPositional_single, verifyPositionalOne_eq] at h
  split at h
  · rename_i hc
    obtain ⟨hadd, hle⟩ := hc
    simp only at h
    rcases hex : extraCoordinates T (nv - last.point.length) last ⟨last.point, proof.add.rightEval⟩ ts with ⟨extra, ts1⟩
    have hel : extra.length = nv - last.point.length := by
      have := extraCoordinates_length T (nv - last.point.length) last ⟨last.point, proof.add.rightEval⟩ ts
      rwa [hex] at this
    rw [hex] at h
    simp only [Option.map_map, Option.map_eq_some_iff, Function.comp, Prod.mk.injEq, List.cons.injEq, Option.some.injEq, and_true] at h
    obtain ⟨c, hc, rfl, rfl, -⟩ := h
    unfold positionalClaim at hc
    split at hc
    · simp only [Option.some.injEq] at hc
      subst hc
      simp only at hsub hclaim hin ⊢
      refine ⟨by simp, ?_⟩
      have hpl : pos.length = 2 ^ (last.point.length + extra.length) := by rw [hel, hpos]; congr 1; omega
      rw [← hel] at hsub
      have hd : (last.point ++ extra).drop ((last.point ++ extra).length - proof.subEvals.length) = extra := by rw [hsub]; simp
      rw [hd, hsub, fold_blocks pos last.point extra hpl.ge] at hclaim
      have hz : (proof.add.rightEval - mle (pos.take (2 ^ last.point.length)) last.point) * (extra.map fun c => 1 - c).prod = 0 := by
        linear_combination hclaim
      rcases mul_eq_zero.mp hz with h0 | h0
      · left
        rw [mle_zipWith a b x _ last.point hx (by
          rw [List.length_take, hpos]; exact min_eq_left (Nat.pow_le_pow_right (by omega) hle)), ← hadd, hin, sub_eq_zero.mp h0]
      · right
        rw [List.prod_eq_zero_iff, List.mem_map] at h0
        obtain ⟨c, hc, hc0⟩ := h0
        have : (1 : F) = c := sub_eq_zero.mp hc0
        simpa [this] using hc
    · simp at hc
  · simp at h

omit [DecidableEq F] in
theorem positionalClaim_forge (point : List F) (hne : point ≠ []) (hc : point.getLast hne ≠ 0) (s target : F) (k : ℕ) (hk : 0 < k) (hk' : k ≤ point.length) :
    ∃ subEvals : List F, subEvals.length = k ∧ positionalClaim point s subEvals = some ⟨point, target⟩ := by
  obtain ⟨m, rfl⟩ : ∃ m, k = m + 1 := ⟨k - 1, by omega⟩
  obtain ⟨init, c, rfl⟩ : ∃ init c, point = init ++ [c] := ⟨point.dropLast, point.getLast hne, (List.dropLast_append_getLast hne).symm⟩
  simp only [List.getLast_append_singleton] at hc
  simp only [List.length_append, List.length_singleton] at hk'
  obtain ⟨v, hv⟩ : ∃ v, v = ((List.replicate m (0 : F)).zip (init.drop (init.length - m))).foldl (fun ev sc => ev * (1 - sc.2) + sc.1 * sc.2) s := ⟨_, rfl⟩
  refine ⟨List.replicate m 0 ++ [(target - v * (1 - c)) / c], by simp, ?_⟩
  unfold positionalClaim
  rw [if_pos (by simp; omega)]
  congr 1
  have hd : (init ++ [c]).drop ((init ++ [c]).length - (List.replicate m (0 : F) ++ [(target - v * (1 - c)) / c]).length) = init.drop (init.length - m) ++ [c] := by
    rw [List.length_append, List.length_append, List.length_replicate, List.length_singleton, List.length_singleton,
      show init.length + 1 - (m + 1) = init.length - m by omega, List.drop_append_of_le_length (by omega)]
  rw [hd, List.zip_append (by simp; omega), List.foldl_append, ← hv]
  simp only [List.zip_cons_cons, List.zip_nil_right, List.foldl_cons, List.foldl_nil, Claim.mk.injEq, true_and]
  field_simp
  ring

/-- C74 is false: the evaluations of the sub-matrices are chosen after the extra coordinates are known and nothing ties them to the matrix. For every matrix, every input and every output claim, true
or false, there is a proof, with the number of evaluations an honest prover sends or any other positive number, that the verifier accepts, and both claims it passes on, about the input and about the
committed matrix, are true (unless the last coordinate is zero). -/
theorem C74_forged_false (T : Transcript F) (a b : F) (hb : b ≠ 0) (nv : ℕ) (pos x : List F) (last : Claim F) (hn : last.point.length ≤ nv) (k : ℕ) (hk : 0 < k)
    (hk' : k ≤ nv) (ts : T.State) :
    ∃ (right : F) (pt : List F) (ts' : T.State), pt.length = nv ∧ last.point <+: pt ∧
      (∀ hne : pt ≠ [], pt.getLast hne ≠ 0 → ∃ subEvals : List F, subEvals.length = k ∧
        verifyPositional T a b nv [last] [⟨subEvals, ⟨mle x last.point, right⟩⟩] ts
          = some ([⟨last.point, mle x last.point⟩], some ⟨pt, mle pos pt⟩, ts')) := by
  refine ⟨(last.eval - mle x last.point * a) / b, last.point ++ (extraCoordinates T (nv - last.point.length) last ⟨last.point, (last.eval - mle x last.point * a) / b⟩ ts).1,
    (extraCoordinates T (nv - last.point.length) last ⟨last.point, (last.eval - mle x last.point * a) / b⟩ ts).2, ?_, List.prefix_append _ _, ?_⟩
  · rw [List.length_append, extraCoordinates_length]; omega
  · intro hne hl
    obtain ⟨subEvals, h1, h2⟩ := positionalClaim_forge _ hne hl ((last.eval - mle x last.point * a) / b) (mle pos (last.point ++ (extraCoordinates T (nv - last.point.length) last ⟨last.point, (last.eval - mle x last.point * a) / b⟩ ts).1))
      k hk (by rw [List.length_append, extraCoordinates_length]; omega)
    refine ⟨subEvals, h1, ?_⟩
    rw [verifyPositional_single, verifyPositionalOne_eq, if_pos ⟨by field_simp; ring, hn⟩]
    simp only [h2]
    rfl

/-- C74 is false for several inputs: the claims on the positional matrix overwrite each other, so nothing is left of the claim of the first input. For every output claim of the first input, true or
false, there is a first proof such that whatever is accepted for the second input is accepted for both; the only claim left of the first input is the true one about the input itself. -/
theorem C74_overwritten_false (T : Transcript F) (a b : F) (hb : b ≠ 0) (nv : ℕ) (x : List F) (last1 last2 : Claim F) (hn : last1.point.length ≤ nv) (ts : T.State) :
    ∃ proof1 ts1, ∀ proof2 input2 claim2 ts',
      verifyPositional T a b nv [last2] [proof2] ts1 = some ([input2], some claim2, ts') →
      verifyPositional T a b nv [last1, last2] [proof1, proof2] ts = some ([⟨last1.point, mle x last1.point⟩, input2], some claim2, ts') := by
  refine ⟨⟨[], ⟨mle x last1.point, (last1.eval - mle x last1.point * a) / b⟩⟩,
    (extraCoordinates T (nv - last1.point.length) last1 ⟨last1.point, (last1.eval - mle x last1.point * a) / b⟩ ts).2, ?_⟩
  intro proof2 input2 claim2 ts' h
  rw [verifyPositional_single, Option.map_eq_some_iff] at h
  obtain ⟨⟨i2, c2, t2⟩, h1, h2⟩ := h
  simp only [Prod.mk.injEq, List.cons.injEq, Option.some.injEq, and_true] at h2
  obtain ⟨rfl, rfl, rfl⟩ := h2
  unfold verifyPositional
  simp only [List.length_cons, List.length_nil, if_true, List.zip_cons_cons, List.zip_nil_left, List.foldlM_cons, List.foldlM_nil]
  rw [verifyPositionalOne_eq T a b nv last1, if_pos ⟨by field_simp; ring, hn⟩]
  simp [positionalClaim, h1]

/-- An output claim of 100 where the true value is 1, accepted with true claims on the input `[1]` and on the positional matrix `[0, 0]`. -/
example : verifyPositional (F := ℚ) (tape ℚ) 1 1 1 [⟨[], 100⟩] [⟨[-99 * (1 - 5) / 5], ⟨1, 99⟩⟩] [5] = some ([⟨[], 1⟩], some ⟨[5], 0⟩, []) := by decide +kernel

end Props
