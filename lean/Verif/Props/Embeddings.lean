import Verif.Lemmas.TokenLayers
import Verif.Lemmas.Basefold

/-!
C73: token embeddings.
-/

namespace Props
open Spec Model Lemmas Polynomial

/-- C73, inference: for tokens of the vocabulary the layer returns the rows of the table the tokens select, and it panics if some token (an `i64`) is not in the vocabulary. -/
theorem C73_rows {α : Type} [Zero α] (vocab emb : ℕ) (hv : vocab ≤ 2 ^ 63) (table : List α) (ht : table.length = vocab * emb) (xs : List ℤ)
    (hx : ∀ x ∈ xs, -2 ^ 63 ≤ x ∧ x < 2 ^ 63) :
    embeddingsEvaluate vocab emb table xs
      = if ∀ x ∈ xs, 0 ≤ x ∧ x < vocab then some (embeddingRows emb table (xs.map Int.toNat)) else none := by
  have hrow : ∀ x ∈ xs, (let idx := (x % 2 ^ 64).toNat
      if idx < vocab ∧ idx * emb + emb ≤ table.length then some ((table.drop (idx * emb)).take emb) else none)
      = if 0 ≤ x ∧ x < vocab then some ((table.drop (x.toNat * emb)).take emb) else none := by
    intro x hxm
    obtain ⟨h1, h2⟩ := hx x hxm
    dsimp only
    by_cases h0 : 0 ≤ x
    · have : (x % 2 ^ 64).toNat = x.toNat := by rw [Int.emod_eq_of_lt h0 (by omega)]
      rw [this]
      by_cases hlt : x < vocab
      · have h3 : x.toNat < vocab := by omega
        have h4 : x.toNat * emb + emb ≤ table.length := by rw [ht]; nlinarith
        rw [if_pos ⟨h3, h4⟩, if_pos ⟨h0, hlt⟩]
      · rw [if_neg (by omega), if_neg (by omega)]
    · have : (x % 2 ^ 64) = x + 2 ^ 64 := by
        rw [show x % 2 ^ 64 = (x + 2 ^ 64) % 2 ^ 64 by simp, Int.emod_eq_of_lt (by omega) (by omega)]
      rw [if_neg (by rw [this]; omega), if_neg (by omega)]
  unfold embeddingsEvaluate
  split
  · rename_i hall
    rw [mapM_some' _ (fun x : ℤ => (table.drop (x.toNat * emb)).take emb) xs (fun x hxm => by
      have := hrow x hxm
      rw [if_pos (hall x hxm)] at this
      exact this)]
    simp only [Option.bind_eq_bind, Option.bind_some, Option.some.injEq]
    have hlen : ∀ g ∈ xs.map (fun x : ℤ => (table.drop (x.toNat * emb)).take emb), g.length = emb := by
      intro g hg
      obtain ⟨x, hxm, rfl⟩ := List.mem_map.mp hg
      obtain ⟨h1, h2⟩ := hall x hxm
      have h3 : x.toNat + 1 ≤ vocab := by omega
      have := Nat.mul_le_mul_right emb h3
      rw [List.length_take, List.length_drop, ht]
      rw [Nat.add_mul, one_mul] at this
      omega
    unfold embeddingRows
    apply list_ext_getD (d := 0)
    · rw [length_flatten' emb _ hlen]; simp
    · intro o ho
      rw [length_flatten' emb _ hlen, List.length_map] at ho
      rcases Nat.eq_zero_or_pos emb with h0 | hpos
      · subst h0; simp at ho
      have hi : o / emb < xs.length := by rw [Nat.div_lt_iff_lt_mul hpos]; exact ho
      have hr : o % emb < emb := Nat.mod_lt _ hpos
      conv_lhs => rw [show o = o / emb * emb + o % emb by rw [mul_comm]; exact (Nat.div_add_mod o emb).symm]
      rw [getD_flatten emb _ hlen _ _ _ (by simpa using hi) hr, List.getD_eq_getElem?_getD (l := List.map _ (List.range _)), List.getElem?_map,
        List.getElem?_range (by simpa using ho)]
      simp only [List.getElem_map, Option.map_some, Option.getD_some]
      rw [List.getD_eq_getElem?_getD, List.getElem?_take, if_pos hr, List.getElem?_drop, List.getD_eq_getElem?_getD,
        List.getD_eq_getElem (l := xs.map Int.toNat) _ (by simpa using hi), List.getElem_map]
  · rename_i hnot
    push Not at hnot
    obtain ⟨x, hxm, hbad⟩ := hnot
    have hx0 : (if 0 ≤ x ∧ x < vocab then some ((table.drop (x.toNat * emb)).take emb) else none) = none := by
      rw [if_neg]
      rintro ⟨h1, h2⟩
      exact absurd h2 (not_lt.mpr (hbad h1))
    rw [← hrow x hxm] at hx0
    cases hm : xs.mapM (fun x : ℤ =>
      let idx := (x % 2 ^ 64).toNat
      if idx < vocab ∧ idx * emb + emb ≤ table.length then some ((table.drop (idx * emb)).take emb) else none) with
    | none => rfl
    | some rows =>
      obtain ⟨i, hi, hxi⟩ := List.getElem_of_mem hxm
      obtain ⟨g1, g2⟩ := mapM_at _ xs rows hm
      have := g2 i x (by rw [List.getElem?_eq_getElem hi, hxi])
      rw [hx0, List.getElem?_eq_getElem (by omega)] at this
      simp at this

example : embeddingsEvaluate 3 2 [10, 11, 20, 21, 30, 31] [2, 0, 2] = some ([30, 31, 10, 11, 30, 31] : List ℤ) := by decide

example : embeddingsEvaluate 3 2 ([10, 11, 20, 21, 30, 31] : List ℤ) [2, -1] = none := by decide

variable {F : Type} [Field F] [DecidableEq F]

/-- C73, honest proofs: for every table of `2^v` rows and `2^e` columns, every sequence of `2^s` tokens and the true claim on the selected rows, the prover produces a proof; the verifier accepts it
with a true claim on the one-hot matrix of the tokens and a true claim on the table, unless a challenge is 0, 1 or 2 (see C07). -/
theorem C73_complete (T : Transcript F) (threads : ℕ) (ht : 0 < threads) (hchar : ∀ k : ℕ, 0 < k → k ≤ 2 → (k : F) ≠ 0) (v e s : ℕ) (W : List F)
    (hW : W.length = 2 ^ (v + e)) (tokens : List ℕ) (hl : tokens.length = 2 ^ s) (htok : ∀ t ∈ tokens, t < 2 ^ v) (r : List F) (hr : r.length = e + s) (ts : T.State) :
    ∃ proof pt ts', pt.length = v ∧
      let last : Claim F := ⟨r, mle (embeddingRows (2 ^ e) W tokens) r⟩
      let input : Claim F := ⟨pt ++ r.drop e, mle (oneHot (2 ^ v) tokens) (pt ++ r.drop e)⟩
      let table : Claim F := ⟨r.take e ++ pt, mle W (r.take e ++ pt)⟩
      proveEmbeddings threads T v e W tokens last ts = some (proof, input, table, ts') ∧
      ((∀ c ∈ pt, ∀ k : ℕ, k ≤ 2 → c ≠ (k : F)) → verifyEmbeddings T v e last proof ts = some (input, table, ts')) := by
  have hc : (r.take e).length = e := by simp [hr]
  have hd : (r.drop e).length = s := by simp [hr]
  obtain ⟨red, r1, r2, r3⟩ := mle_reduced v s tokens (r.drop e) hd hl htok
  obtain ⟨u, u1, u2, u3⟩ := fixLow_mle v e W (r.take e) hW hc
  obtain ⟨proof, ts', h1, h2, h3⟩ := proveProduct_spec T threads ht v hchar red u r2 u2 ts
  have hsplit : embSplit e r = some (r.drop e, r.take e) := by unfold embSplit; rw [if_pos (by omega)]
  refine ⟨⟨proof, [mle red proof.point, mle u proof.point]⟩, proof.point, ts', h2, ?_, ?_⟩
  · unfold proveEmbeddings
    simp only [hsplit, r1, Mle.ofEvals, r2, hW, if_true, Option.bind_eq_bind, Option.bind_some, u1, h1]
    simp [r3 proof.point h2, u3]
  · intro hch
    have hs : mle (embeddingRows (2 ^ e) W tokens) r = cubeSum v fun pt => mle red pt * mle u pt := by
      conv_lhs => rw [← List.take_append_drop e r]
      rw [mle_embeddingRows v e s W tokens hl htok _ _ hc hd]
      apply cubeSum_congr
      intro pt hpt
      rw [r3 pt hpt, u3]
    unfold verifyEmbeddings
    simp only [hs, h3 hch, Option.bind_eq_bind, Option.bind_some, hsplit]
    simp [r3 proof.point h2, u3]

example : ∃ (tokens : List ℕ) (W : List ℚ), tokens.length = 2 ^ 1 ∧ (∀ t ∈ tokens, t < 2 ^ 1) ∧ W.length = 2 ^ (1 + 1) ∧
    embeddingRows (2 ^ 1) W tokens = [7, 8, 5, 6] := ⟨[1, 0], [5, 6, 7, 8], by decide, by decide, by decide, by decide +kernel⟩

/-- C73, the last check: for tokens below `2^v` the claim on the one-hot matrix is accepted exactly if it is true. -/
theorem C73_input_claim (val : F → ℕ) (v s : ℕ) (hv : v ≤ 64) (tokens : List F) (hl : tokens.length = 2 ^ s) (htok : ∀ t ∈ tokens, val t < 2 ^ v) (claim : Claim F) :
    verifyEmbInput val v tokens claim = some ()
      ↔ claim.point.length = v + s ∧ claim.eval = mle (oneHot (2 ^ v) (tokens.map val)) claim.point := by
  unfold verifyEmbInput
  rw [hl, nextPow2_pow, Nat.log2_two_pow]
  by_cases hp : v + s = claim.point.length
  · have hc : (claim.point.take v).length = v := by simp; omega
    have hd : (claim.point.drop v).length = s := by simp; omega
    rw [if_pos hp, tokenSum_eq val tokens _ _ (by rw [hc]; exact hv) (by rw [hd, hl]), hc, List.take_append_drop]
    have : (tokens.map fun t => val t % 2 ^ v) = tokens.map val := List.map_congr_left fun t ht => Nat.mod_eq_of_lt (htok t ht)
    rw [this]
    simp only [Option.bind_eq_bind, Option.bind_some]
    constructor
    · intro h
      split at h
      · rename_i he; exact ⟨hp.symm, he.symm⟩
      · simp at h
    · rintro ⟨-, h⟩
      rw [if_pos h.symm]
  · rw [if_neg hp]
    simp
    intro h; exact absurd h.symm hp

theorem verifyEmbeddings_inv (T : Transcript F) (v e : ℕ) (last : Claim F) (proof : EmbeddingsProof F) (ts ts' : T.State) (input table : Claim F)
    (h : verifyEmbeddings T v e last proof ts = some (input, table, ts')) :
    ∃ sub e0 e1, verify T last.eval proof.sumcheck 2 v ts = some (sub, ts') ∧ e ≤ last.point.length ∧ e0 * e1 = sub.expected ∧
      proof.individualClaims[0]? = some e0 ∧ proof.individualClaims[1]? = some e1 ∧
      input = ⟨sub.point ++ last.point.drop e, e0⟩ ∧ table = ⟨last.point.take e ++ sub.point, e1⟩ := by
  unfold verifyEmbeddings embSplit at h
  simp only [Option.bind_eq_bind, Option.bind_eq_some_iff] at h
  obtain ⟨⟨sub, ts1⟩, hv, ⟨row, col⟩, hs, e0, he0, e1, he1, h⟩ := h
  split at hs
  · rename_i hle
    simp only [Option.some.injEq, Prod.mk.injEq] at hs
    obtain ⟨rfl, rfl⟩ := hs
    split at h
    · rename_i hp
      simp only [Option.some.injEq, Prod.mk.injEq] at h
      obtain ⟨rfl, rfl, rfl⟩ := h
      exact ⟨sub, e0, e1, hv, hle, hp, he0, he1, rfl, rfl⟩
    · simp at h
  · simp at hs

/-- C73, soundness: if the verifier accepts a claim on the output, the public tokens (below `2^v`) pass the check of the resulting input claim, and the claim on the table is true, then the output
claim is true of the rows the tokens select, or the prover was lucky in some round of the sumcheck. -/
theorem C73_sound (T : Transcript F) (hchar : ∀ k : ℕ, 0 < k → k ≤ 2 → (k : F) ≠ 0) (val : F → ℕ) (v e s : ℕ) (hv : v ≤ 64) (W : List F) (tokens : List F)
    (hl : tokens.length = 2 ^ s) (htok : ∀ t ∈ tokens, val t < 2 ^ v) (last : Claim F) (proof : EmbeddingsProof F) (ts ts' : T.State)
    (input table : Claim F) (h : verifyEmbeddings T v e last proof ts = some (input, table, ts')) (hin : verifyEmbInput val v tokens input = some ())
    (ht : table.eval = mle W table.point) :
    last.point.length = e + s ∧
    (last.eval = mle (embeddingRows (2 ^ e) W (tokens.map val)) last.point ∨
      LuckyRound 2 v (fun pt => mle (oneHot (2 ^ v) (tokens.map val)) (pt ++ last.point.drop e) * mle W (last.point.take e ++ pt)) proof.sumcheck.proofs
        (input.point.take v)) := by
  obtain ⟨sub, e0, e1, hver, hle, hp, -, -, rfl, rfl⟩ := verifyEmbeddings_inv T v e last proof ts ts' input table h
  obtain ⟨hlen, heval⟩ := (C73_input_claim val v s hv tokens hl htok _).mp hin
  simp only at heval ht hlen
  obtain ⟨g1, g2⟩ := product_sound T v hchar
    (fun pt => mle (oneHot (2 ^ v) (tokens.map val)) (pt ++ last.point.drop e) * mle W (last.point.take e ++ pt)) _ _ _ _ sub hver (by rw [← hp, heval, ht])
  have hr : last.point.length = e + s := by
    rw [List.length_append, g1, List.length_drop] at hlen
    omega
  refine ⟨hr, ?_⟩
  have htake : (sub.point ++ last.point.drop e).take v = sub.point := by rw [← g1]; simp
  simp only [htake]
  refine g2.imp (fun g => ?_) id
  conv_rhs => rw [← List.take_append_drop e last.point]
  rw [mle_embeddingRows v e s W (tokens.map val) (by simpa using hl) (by
    intro t htm
    obtain ⟨u, hu, rfl⟩ := List.mem_map.mp htm
    exact htok u hu) _ _ (by simp [hr]) (by simp [hr]), g]

open Classical in
/-- C73, counting: over a finite field, for every false output claim and every prover strategy (messages chosen from the challenges seen so far, individual claims from all of them), at most a
fraction `2v/|F|` of the challenge vectors makes the verifier accept together with the check of the tokens and a true claim on the table. -/
theorem C73_soundness_error [Fintype F] (hchar : ∀ k : ℕ, 0 < k → k ≤ 2 → (k : F) ≠ 0) (val : F → ℕ) (v e s : ℕ) (hv : v ≤ 64) (W : List F) (tokens : List F)
    (hl : tokens.length = 2 ^ s) (htok : ∀ t ∈ tokens, val t < 2 ^ v) (last : Claim F) (hfalse : last.eval ≠ mle (embeddingRows (2 ^ e) W (tokens.map val)) last.point)
    (σ : List F → List F) (τ : (Fin v → F) → List F) :
    (Finset.univ.filter fun r : Fin v → F => ∃ input table ts',
      verifyEmbeddings (tape F) v e last ⟨⟨[], (List.range v).map fun i => σ ((List.ofFn r).take i)⟩, τ r⟩ (List.ofFn r) = some (input, table, ts') ∧
      verifyEmbInput val v tokens input = some () ∧ table.eval = mle W table.point).card * Fintype.card F ≤ v * 2 * Fintype.card F ^ v := by
  by_cases hr : last.point.length = e + s
  · have hf' : last.eval ≠ cubeSum v (fun pt => mle (oneHot (2 ^ v) (tokens.map val)) ([] ++ pt ++ last.point.drop e) * mle W (last.point.take e ++ pt ++ [])) := by
      intro h
      apply hfalse
      conv_rhs => rw [← List.take_append_drop e last.point]
      rw [mle_embeddingRows v e s W (tokens.map val) (by simpa using hl) (by
        intro t htm
        obtain ⟨u, hu, rfl⟩ := List.mem_map.mp htm
        exact htok u hu) _ _ (by simp [hr]) (by simp [hr])]
      simpa using h
    refine le_trans (Nat.mul_le_mul_right _ (Finset.card_le_card ?_)) (C11_soundness_error 2 v hchar _ (product_degree v _ W [] (last.point.drop e) (last.point.take e) []) _ hf' σ)
    intro r hrr
    simp only [Finset.mem_filter, Finset.mem_univ, true_and] at hrr ⊢
    obtain ⟨input, table, ts', h, hin, ht⟩ := hrr
    obtain ⟨sub, e0, e1, hver, hle, hp, -, -, rfl, rfl⟩ := verifyEmbeddings_inv (tape F) v e last _ (List.ofFn r) ts' input table h
    obtain ⟨hlen, heval⟩ := (C73_input_claim val v s hv tokens hl htok _).mp hin
    simp only at heval ht
    refine ⟨sub, ?_, by rw [← hp, heval, ht]; simp⟩
    unfold playSumcheck
    rw [hver]; rfl
  · rw [Finset.filter_false_of_mem]
    · simp
    · rintro r - ⟨input, table, ts', h, hin, ht⟩
      exact hr (C73_sound (tape F) hchar val v e s hv W tokens hl htok last _ _ ts' input table h hin ht).1

/-- C73 fails for tokens outside the table: the check of the input claim only sees the tokens modulo `2^v`, so two public inputs that agree modulo `2^v` get the same verdict on every claim. In
particular a token outside the vocabulary, for which inference panics, is accepted with the proof made for another token. -/
theorem C73_alias_false (val : F → ℕ) (v : ℕ) (tokens tokens' : List F) (h : List.Forall₂ (fun t t' => val t % 2 ^ v = val t' % 2 ^ v) tokens tokens') (claim : Claim F) :
    verifyEmbInput val v tokens claim = verifyEmbInput val v tokens' claim := by
  unfold verifyEmbInput
  rw [h.length_eq]
  by_cases hlen : v + Nat.log2 (nextPow2 tokens'.length) = claim.point.length
  · rw [if_pos hlen, if_pos hlen]
    have hbits : ∀ t t' : F, val t % 2 ^ v = val t' % 2 ^ v →
        bitSequence (F := F) (val t) (claim.point.take v).length = bitSequence (val t') (claim.point.take v).length := by
      intro t t' htt
      have hc : (claim.point.take v).length = v := by simp; omega
      rw [hc]
      by_cases h64 : v ≤ 64
      · rw [bitSequence_eq _ _ h64, bitSequence_eq _ _ h64, bitsPoint_mod, htt, ← bitsPoint_mod]
      · simp [bitSequence, h64]
    have hsum : ∀ (tokens tokens' betas : List F) (acc : F), List.Forall₂ (fun t t' => val t % 2 ^ v = val t' % 2 ^ v) tokens tokens' →
        (tokens.zip betas).foldlM (fun (sum : F) (tb : F × F) => do
          let bits ← bitSequence (val tb.1) (claim.point.take v).length
          some (sum + tb.2 * identityEval (claim.point.take v) bits)) acc
        = (tokens'.zip betas).foldlM (fun (sum : F) (tb : F × F) => do
          let bits ← bitSequence (val tb.1) (claim.point.take v).length
          some (sum + tb.2 * identityEval (claim.point.take v) bits)) acc := by
      intro tokens tokens' betas acc hf
      induction hf generalizing betas acc with
      | nil => rfl
      | @cons a b l l' hab _ ih =>
        cases betas with
        | nil => rfl
        | cons c betas =>
          simp only [List.zip_cons_cons, List.foldlM_cons, hbits a b hab]
          congr 1
          funext acc'
          exact ih betas acc'
    have hts : tokenSum val tokens (claim.point.take v) (claim.point.drop v) = tokenSum val tokens' (claim.point.take v) (claim.point.drop v) :=
      hsum tokens tokens' _ 0 h
    rw [hts]
  · rw [if_neg hlen, if_neg hlen]

/-- A vocabulary of two tokens: the claim of token 1 is accepted for token 3, where inference panics. -/
example : verifyEmbInput (F := ℚ) (fun x => x.num.toNat) 1 [3] ⟨[5], 5⟩ = some () ∧ verifyEmbInput (F := ℚ) (fun x => x.num.toNat) 1 [1] ⟨[5], 5⟩ = some () ∧
    embeddingsEvaluate 2 1 ([10, 20] : List ℤ) [3] = none := by decide +kernel

end Props
