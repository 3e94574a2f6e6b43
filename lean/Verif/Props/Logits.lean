import Verif.Lemmas.Logits
import Verif.Lemmas.Basefold

/-!
C75: the final argmax layer.
-/

namespace Props
open Spec Model Lemmas

/-! ### Inference -/

theorem maxInSlice_fold {α : Type} [LinearOrder α] (v : List α) : ∀ (k : ℕ) (acc : α × ℕ),
    (((v.zipIdx k).foldl (fun acc x => if acc.1 < x.1 then (x.1, x.2) else acc) acc = acc ∧ ∀ x ∈ v, x ≤ acc.1) ∨
      ∃ i m, (v.zipIdx k).foldl (fun acc x => if acc.1 < x.1 then (x.1, x.2) else acc) acc = (m, k + i) ∧ v[i]? = some m ∧ acc.1 < m ∧
        (∀ x ∈ v, x ≤ m) ∧ ∀ j < i, ∀ y, v[j]? = some y → y < m) := by
  induction v with
  | nil => intro k acc; left; simp
  | cons a as ih =>
    intro k acc
    simp only [List.zipIdx_cons, List.foldl_cons]
    by_cases h : acc.1 < a
    · rw [if_pos h]
      rcases ih (k + 1) (a, k) with ⟨h1, h2⟩ | ⟨i, m, h1, h2, h3, h4, h5⟩
      · right
        refine ⟨0, a, h1, rfl, h, ?_, fun j hj => absurd hj (by omega)⟩
        intro x hx
        rcases List.mem_cons.mp hx with rfl | hx
        · exact le_refl _
        · exact h2 x hx
      · right
        refine ⟨i + 1, m, ?_, by simpa using h2, lt_trans h h3, ?_, ?_⟩
        · rw [h1, Prod.mk.injEq]; exact ⟨rfl, by omega⟩
        · intro x hx
          rcases List.mem_cons.mp hx with rfl | hx
          · exact h3.le
          · exact h4 x hx
        · intro j hj y hy
          cases j with
          | zero => simp only [List.getElem?_cons_zero, Option.some.injEq] at hy; rw [← hy]; exact h3
          | succ j => exact h5 j (by omega) y (by simpa using hy)
    · rw [if_neg h]
      have h' := not_lt.mp h
      rcases ih (k + 1) acc with ⟨h1, h2⟩ | ⟨i, m, h1, h2, h3, h4, h5⟩
      · left
        refine ⟨h1, ?_⟩
        intro x hx
        rcases List.mem_cons.mp hx with rfl | hx
        · exact h'
        · exact h2 x hx
      · right
        refine ⟨i + 1, m, ?_, by simpa using h2, h3, ?_, ?_⟩
        · rw [h1, Prod.mk.injEq]; exact ⟨rfl, by omega⟩
        · intro x hx
          rcases List.mem_cons.mp hx with rfl | hx
          · exact (lt_of_le_of_lt h' h3).le
          · exact h4 x hx
        · intro j hj y hy
          cases j with
          | zero => simp only [List.getElem?_cons_zero, Option.some.injEq] at hy; rw [← hy]; exact lt_of_le_of_lt h' h3
          | succ j => exact h5 j (by omega) y (by simpa using hy)

theorem maxInSlice_spec {α : Type} [LinearOrder α] (lo : α) (v : List α) (hlo : ∀ x ∈ v, lo ≤ x) (m : α) (i : ℕ) (h : maxInSlice lo v = some (m, i)) :
    v[i]? = some m ∧ (∀ x ∈ v, x ≤ m) ∧ ∀ j < i, ∀ y, v[j]? = some y → y < m := by
  unfold maxInSlice at h
  split at h
  · simp at h
  · rename_i hne
    simp only [Option.some.injEq] at h
    rcases maxInSlice_fold v 0 (lo, 0) with ⟨h1, h2⟩ | ⟨j, m', h1, h2, h3, h4, h5⟩
    · rw [h1, Prod.mk.injEq] at h
      obtain ⟨rfl, rfl⟩ := h
      refine ⟨?_, h2, fun j hj => absurd hj (by omega)⟩
      cases v with
      | nil => exact absurd rfl hne
      | cons a as =>
        have := le_antisymm (h2 a (by simp)) (hlo a (by simp))
        simp [this]
    · rw [h1, Prod.mk.injEq, zero_add] at h
      obtain ⟨rfl, rfl⟩ := h
      exact ⟨h2, h4, h5⟩

/-- C75, inference: for every matrix of `rows` rows and `cols > 0` columns the layer returns, for each row, the first position of the greatest entry (and keeps that entry). -/
theorem C75_evaluate {α : Type} [LinearOrder α] [Zero α] (lo : α) (rows cols : ℕ) (hc : 0 < cols) (data : List α) (hd : data.length = rows * cols) (hlo : ∀ x ∈ data, lo ≤ x) :
    ∃ idx mx, logitsEvaluate lo rows cols data = some (idx, mx) ∧ idx.length = rows ∧ mx.length = rows ∧ ∀ i < rows, idx.getD i 0 < cols ∧
      mx.getD i 0 = data.getD (i * cols + idx.getD i 0) 0 ∧ (∀ j < cols, data.getD (i * cols + j) 0 ≤ mx.getD i 0) ∧
      ∀ j < idx.getD i 0, data.getD (i * cols + j) 0 < mx.getD i 0 := by
  have hrow : ∀ i < rows, ((data.drop (i * cols)).take cols).length = cols := by
    intro i hi
    have : (i + 1) * cols ≤ rows * cols := Nat.mul_le_mul_right _ hi
    rw [List.length_take, List.length_drop, hd]
    rw [add_mul, one_mul] at this
    omega
  have hsome : ∀ i ∈ List.range rows, ∃ r, maxInSlice lo ((data.drop (i * cols)).take cols) = some r := by
    intro i hi
    have := hrow i (List.mem_range.mp hi)
    unfold maxInSlice
    rw [if_neg (by intro h; rw [h] at this; simp at this; omega)]
    exact ⟨_, rfl⟩
  have hm : ∃ r, (List.range rows).mapM (fun i => maxInSlice lo ((data.drop (i * cols)).take cols)) = some r := by
    generalize List.range rows = l at hsome
    induction l with
    | nil => exact ⟨[], rfl⟩
    | cons a as ih =>
      obtain ⟨r, hr⟩ := hsome a (by simp)
      obtain ⟨rs, hrs⟩ := ih (fun i hi => hsome i (by simp [hi]))
      exact ⟨r :: rs, by rw [List.mapM_cons, hr, hrs]; rfl⟩
  obtain ⟨r, hr⟩ := hm
  obtain ⟨hlen, hat⟩ := mapM_at _ _ _ hr
  rw [List.length_range] at hlen
  refine ⟨r.map Prod.snd, r.map Prod.fst, ?_, by simpa using hlen, by simpa using hlen, ?_⟩
  · unfold logitsEvaluate; rw [hr]; rfl
  · intro i hi
    have h1 := hat i i (by rw [List.getElem?_range hi])
    have hir : i < r.length := by omega
    rw [List.getElem?_eq_getElem hir] at h1
    obtain ⟨m, k, hmk'⟩ : ∃ m k, r[i] = (m, k) := ⟨_, _, rfl⟩
    rw [hmk'] at h1
    obtain ⟨g1, g2, g3⟩ := maxInSlice_spec lo _ (fun x hx => hlo x (List.mem_of_mem_drop (List.mem_of_mem_take hx))) m k h1
    have e1 : (r.map Prod.snd).getD i 0 = k := by rw [List.getD_eq_getElem _ _ (by simpa using hir), List.getElem_map, hmk']
    have e2 : (r.map Prod.fst).getD i 0 = m := by rw [List.getD_eq_getElem _ _ (by simpa using hir), List.getElem_map, hmk']
    have hk : k < cols := by
      have := (List.getElem?_eq_some_iff.mp g1).1
      rwa [hrow i hi] at this
    have hget : ∀ j, j < cols → ((data.drop (i * cols)).take cols)[j]? = some (data.getD (i * cols + j) 0) := by
      intro j hj
      have hb : i * cols + j < data.length := by
        have : (i + 1) * cols ≤ rows * cols := Nat.mul_le_mul_right _ hi
        rw [add_mul, one_mul] at this; omega
      rw [List.getElem?_take, if_pos hj, List.getElem?_drop, List.getElem?_eq_getElem hb, List.getD_eq_getElem _ _ hb]
    rw [e1, e2]
    refine ⟨hk, ?_, ?_, ?_⟩
    · have := hget k hk
      rw [g1] at this
      exact Option.some.inj this
    · intro j hj
      exact g2 _ (List.mem_of_getElem? (hget j hj))
    · intro j hj
      exact g3 j hj _ (hget j (by omega))

example : logitsEvaluate (-1000 : ℤ) 2 4 [1, 7, 7, 2, -5, -4, -3, -9] = some ([1, 2], [7, -3]) := by decide

/-- C75 is false of padded inference: a row of negative logits whose number of columns is padded with zeros gets a padding column as its argmax. -/
theorem C75_padding_false (lo : ℤ) (v : List ℤ) (n : ℕ) (hn : v.length < n) (hlo : lo < 0) (hneg : ∀ x ∈ v, x < 0) :
    maxInSlice lo (v ++ List.replicate (n - v.length) 0) = some (0, v.length) := by
  have hne : v ++ List.replicate (n - v.length) (0 : ℤ) ≠ [] := by
    intro h
    have := congrArg List.length h
    simp at this
    omega
  obtain ⟨⟨m, i⟩, h⟩ : ∃ r, maxInSlice lo (v ++ List.replicate (n - v.length) 0) = some r := by
    unfold maxInSlice; rw [if_neg hne]; exact ⟨_, rfl⟩
  have hz : (v ++ List.replicate (n - v.length) (0 : ℤ))[v.length]? = some 0 := by
    rw [List.getElem?_append_right (le_refl _), Nat.sub_self, List.getElem?_replicate, if_pos (by omega)]
  rw [h]
  unfold maxInSlice at h
  rw [if_neg hne, Option.some.injEq] at h
  rcases maxInSlice_fold (v ++ List.replicate (n - v.length) (0 : ℤ)) 0 (lo, 0) with ⟨-, h2⟩ | ⟨j, m', h1, h2, h3, h4, h5⟩
  · have := h2 0 (List.mem_of_getElem? hz)
    simp only at this
    omega
  · rw [h1, Prod.mk.injEq, zero_add] at h
    obtain ⟨rfl, rfl⟩ := h
    have hm0 : 0 ≤ m' := h4 0 (List.mem_of_getElem? hz)
    have hj : ¬ j < v.length := by
      intro hj
      rw [List.getElem?_append_left hj] at h2
      have := hneg _ (List.mem_of_getElem? h2)
      omega
    have hm : m' = 0 := by
      rw [List.getElem?_append_right (by omega)] at h2
      have := List.mem_of_getElem? h2
      exact (List.mem_replicate.mp this).2
    subst hm
    congr 2
    by_contra hne'
    have := h5 v.length (by omega) 0 hz
    omega

example : maxInSlice (-1000) ([-3, -1, -2] ++ List.replicate (4 - 3) 0) = some (0, 3) := by decide

/-! ### Proving -/

variable {F : Type} [Field F] [DecidableEq F]

/-- The layer's check of the public outputs: it accepts exactly the true claims on the one-hot matrix of the outputs, when the outputs are column numbers. -/
theorem verifyLogitsOutput_iff (val : F → ℕ) (s c : ℕ) (hc : c ≤ 64) (outputs : List F) (hl : outputs.length = 2 ^ s) (hout : ∀ t ∈ outputs, val t < 2 ^ c) (claim : Claim F)
    (hp : claim.point.length = c + s) :
    verifyLogitsOutput val outputs claim = some () ↔ claim.eval = mle (oneHot (2 ^ c) (outputs.map val)) claim.point := by
  unfold verifyLogitsOutput logitsSplit
  rw [hl, Nat.log2_two_pow, if_pos rfl, if_pos (by omega), hp]
  have h1 : (claim.point.take (c + s - s)).length = c := by simp; omega
  have h2 : (claim.point.drop (c + s - s)).length = s := by simp; omega
  simp only [Option.bind_eq_bind, Option.bind_some]
  rw [tokenSum_eq val outputs _ _ (by rw [h1]; exact hc) (by rw [h2, hl]), h1, List.take_append_drop]
  have : (outputs.map fun t => val t % 2 ^ c) = outputs.map val := List.map_congr_left fun t ht => Nat.mod_eq_of_lt (hout t ht)
  rw [this, Option.bind_some]
  constructor
  · intro h
    split at h
    · rename_i he; exact he.symm
    · simp at h
  · intro h; rw [if_pos h.symm]

/-- C75, soundness, for a lookup claim `claim` on the table of gaps. Suppose the verifier accepts, the claim on the vector `M` of maxima and the claim on the input `X` are true. Then the lookup claim is
the true claim on the matrix of the gaps `M[i] - X[i, j]`, and at the row point the vector of maxima agrees with the entries of `X` at the public outputs, unless one of the two sum-checks was lucky or
the batching challenge is the one root of a nonzero affine polynomial. -/
theorem C75_sound (T : Transcript F) (hchar : ∀ k : ℕ, 0 < k → k ≤ 3 → (k : F) ≠ 0) (val : F → ℕ) (s c : ℕ) (hc : c ≤ 64) (X M : List F) (hX : X.length = 2 ^ (c + s))
    (hM : M.length = 2 ^ s) (outputs : List F) (hl : outputs.length = 2 ^ s) (hout : ∀ t ∈ outputs, val t < 2 ^ c) (proof : LogitsProof F) (claim : Claim F)
    (hp : claim.point.length = c + s) (ts ts' : T.State) (mx inp : Claim F) (h : verifyLogitsRest T val s c outputs proof claim ts = some (mx, inp, ts'))
    (hmx : mx.eval = mle M mx.point) (hinp : inp.eval = mle X inp.point) :
    mx.point = claim.point.drop c ∧
    ∃ sub1 ts1, verify T proof.maxEval proof.sumcheck 2 c ts = some (sub1, ts1) ∧
      let idx := outputs.map val
      let picked := List.zipWith (· * ·) X (oneHot (2 ^ c) idx)
      let ch := (squeezeChallenge T ⟨claim.point, proof.maxEval - claim.eval⟩ ts1).1
      let a := proof.maxMatEval - mle picked (sub1.point ++ mx.point)
      let b := mle (rowGaps (2 ^ c) M X) claim.point - claim.eval
      (claim.eval = mle (rowGaps (2 ^ c) M X) claim.point ∧ mle M mx.point = mle (pickedEntries (2 ^ c) X idx) mx.point)
      ∨ LuckyRound 2 c (fun pt => mle picked (pt ++ mx.point)) proof.sumcheck.proofs sub1.point
      ∨ (a + ch * b = 0 ∧ ¬ (a = 0 ∧ b = 0))
      ∨ LuckyRound 3 (c + s) (fun pt => eqPoly (sub1.point ++ mx.point) pt * mle X pt * mle (oneHot (2 ^ c) idx) pt + ch * (eqPoly claim.point pt * mle X pt))
          proof.hadamard.proofs inp.point := by
  unfold verifyLogitsRest logitsSplit at h
  rw [if_pos (by omega), hp, Nat.add_sub_cancel] at h
  simp only [Option.bind_eq_bind, Option.bind_some, Option.bind_eq_some_iff] at h
  obtain ⟨⟨sub1, ts1⟩, hv1, h⟩ := h
  simp only at h
  split at h
  · rename_i hmm
    rw [Option.bind_eq_some_iff] at h
    obtain ⟨⟨sub2, ts2⟩, hv2, h⟩ := h
    simp only at h
    split at h
    · simp at h
    · rename_i hnz
      simp only [Option.bind_eq_some_iff, Option.some.injEq, Prod.mk.injEq] at h
      obtain ⟨u, ho, rfl, rfl, rfl⟩ := h
      simp only at hmx hinp ⊢
      refine ⟨trivial, sub1, ts1, hv1, ?_⟩
      generalize hch : (squeezeChallenge T ⟨claim.point, proof.maxEval - claim.eval⟩ ts1).1 = ch at *
      have hrow : (claim.point.drop c).length = s := by simp; omega
      have hl1 : sub1.point.length = c := (accepted_sound T 2 c (fun k h1 h2 => hchar k h1 (by omega)) (fun _ => sub1.expected) _ _ _ _ _ hv1 rfl).1
      have hl2 : sub2.point.length = c + s := (accepted_sound T 3 (c + s) hchar (fun _ => sub2.expected) _ _ _ _ _ hv2 rfl).1
      have hO := (verifyLogitsOutput_iff val s c hc outputs hl hout _ hl2).mp ho
      simp only at hO
      rw [identityEval_eq' claim.point sub2.point (by rw [hp, hl2]), identityEval_eq' (sub1.point ++ claim.point.drop c) sub2.point (by rw [List.length_append, hl1, hrow, hl2]),
        hinp] at hO
      rw [identityEval_eq' (sub1.point ++ claim.point.drop c) sub2.point (by rw [List.length_append, hl1, hrow, hl2]), hinp] at hnz
      have hexp : sub2.expected = eqPoly (sub1.point ++ claim.point.drop c) sub2.point * mle X sub2.point * mle (oneHot (2 ^ c) (outputs.map val)) sub2.point
          + ch * (eqPoly claim.point sub2.point * mle X sub2.point) := by
        have := congrArg (fun z => z * (eqPoly (sub1.point ++ claim.point.drop c) sub2.point * mle X sub2.point)) hO
        rw [inv_mul_cancel_right₀ hnz] at this
        linear_combination this
      have hol : (oneHot (2 ^ c) (outputs.map val) : List F).length = 2 ^ (c + s) := by rw [oneHot_length, List.length_map, hl, pow_add, mul_comm]
      have hidx : ∀ t ∈ outputs.map val, t < 2 ^ c := by
        intro t ht
        obtain ⟨u, hu, rfl⟩ := List.mem_map.mp ht
        exact hout u hu
      rcases (accepted_sound T 3 (c + s) hchar (fun pt => eqPoly (sub1.point ++ claim.point.drop c) pt * mle X pt * mle (oneHot (2 ^ c) (outputs.map val)) pt
          + ch * (eqPoly claim.point pt * mle X pt)) _ _ _ _ _ hv2 hexp).2 with hsum | hlucky
      · have hs2 : (cubeSum (c + s) fun pt => eqPoly (sub1.point ++ claim.point.drop c) pt * mle X pt * mle (oneHot (2 ^ c) (outputs.map val)) pt
            + ch * (eqPoly claim.point pt * mle X pt))
            = mle (List.zipWith (· * ·) X (oneHot (2 ^ c) (outputs.map val))) (sub1.point ++ claim.point.drop c) + ch * mle X claim.point := by
          have e1 := sum_beta_product (sub1.point ++ claim.point.drop c) X (oneHot (2 ^ c) (outputs.map val)) (by rw [List.length_append, hl1, hrow, hX])
            (by rw [List.length_append, hl1, hrow, hol])
          have e2 := sum_beta_single claim.point X
          rw [List.length_append, hl1, hrow] at e1
          rw [hp] at e2
          rw [← e1, ← e2]
          unfold cubeSum
          rw [Finset.sum_add_distrib, Finset.mul_sum]
        rw [hs2] at hsum
        have hgap : mle (rowGaps (2 ^ c) M X) claim.point = mle M (claim.point.drop c) - mle X claim.point := by
          have := mle_rowGaps c s M X hM (claim.point.take c) (claim.point.drop c) (by simp; omega) hrow
          rwa [List.take_append_drop] at this
        have hz : proof.maxMatEval - mle (List.zipWith (· * ·) X (oneHot (2 ^ c) (outputs.map val))) (sub1.point ++ claim.point.drop c)
            + ch * (mle (rowGaps (2 ^ c) M X) claim.point - claim.eval) = 0 := by
          rw [hgap, ← hmx]
          linear_combination hsum
        by_cases hab : proof.maxMatEval - mle (List.zipWith (· * ·) X (oneHot (2 ^ c) (outputs.map val))) (sub1.point ++ claim.point.drop c) = 0 ∧
            mle (rowGaps (2 ^ c) M X) claim.point - claim.eval = 0
        · rcases (accepted_sound T 2 c (fun k h1 h2 => hchar k h1 (by omega))
            (fun pt => mle (List.zipWith (· * ·) X (oneHot (2 ^ c) (outputs.map val))) (pt ++ claim.point.drop c)) _ _ _ _ _ hv1 (by
              rw [hmm]; exact sub_eq_zero.mp hab.1)).2 with h1 | h1
          · left
            refine ⟨(sub_eq_zero.mp hab.2).symm, ?_⟩
            rw [← hmx, h1, mle_picked c s X hX _ (by simpa using hl) hidx _ hrow]
          · right; left; exact h1
        · right; right; left; exact ⟨hz, hab⟩
      · right; right; right; exact hlucky
  · simp at h

/-- C75, what the two accepted facts mean for integers: if the vector `mx` consists of the entries of `x` at the outputs, and all gaps `mx[i] - x[i, j]` are nonnegative (they are looked up in a range
table), then every output is a position of the greatest entry of its row. -/
theorem C75_meaning (rows cols : ℕ) (x mx : List ℤ) (idx : List ℕ) (hm : mx.length = rows) (hi : idx.length = rows) (hpick : mx = pickedEntries cols x idx)
    (hgap : ∀ g ∈ rowGaps cols mx x, 0 ≤ g) (i : ℕ) (hir : i < rows) (j : ℕ) (hj : j < cols) : x.getD (i * cols + j) 0 ≤ x.getD (i * cols + idx.getD i 0) 0 := by
  have h1 : mx.getD i 0 = x.getD (i * cols + idx.getD i 0) 0 := by
    rw [hpick]
    unfold pickedEntries
    rw [List.getD_eq_getElem _ _ (by simpa using hi ▸ hir), List.getElem_map, List.getElem_range]
  have h2 := hgap (mx.getD i 0 - x.getD (i * cols + j) 0) (by
    unfold rowGaps
    rw [List.mem_map]
    refine ⟨i * cols + j, List.mem_range.mpr (by rw [hm]; nlinarith), ?_⟩
    rw [mul_add_div' hj])
  omega

example : (∀ g ∈ rowGaps 2 (pickedEntries 2 [3, 5, -1, -2] [1, 0]) [3, 5, -1, -2], (0 : ℤ) ≤ g) ∧ pickedEntries 2 [3, 5, -1, -2] [1, 0] = ([5, -1] : List ℤ) := by decide

/-- C75, honest proofs: whatever positions `idx` are claimed, with the entries at these positions as the vector of maxima and a true lookup claim on the gaps, the prover finishes; the verifier accepts
with true claims on the vector and on the input, if no sampled coordinate is 0, 1, 2 or 3 and the verifier does not have to invert zero. -/
theorem C75_complete (T : Transcript F) (threads : ℕ) (ht : 0 < threads) (hchar : ∀ k : ℕ, 0 < k → k ≤ 3 → (k : F) ≠ 0) (val : F → ℕ) (s c : ℕ) (hc : c ≤ 64) (X : List F)
    (hX : X.length = 2 ^ (c + s)) (outputs : List F) (hl : outputs.length = 2 ^ s) (hout : ∀ t ∈ outputs, val t < 2 ^ c) (logup : LogUpProof F) (P : List F)
    (hP : P.length = c + s) (ts : T.State) :
    let idx := outputs.map val
    let M := pickedEntries (2 ^ c) X idx
    let diff : Claim F := ⟨P, mle (rowGaps (2 ^ c) M X) P⟩
    ∃ proof pt ts', pt.length = c + s ∧
      proveLogits threads T s c logup diff X M idx ts = some (proof, ⟨P.drop c, mle M (P.drop c)⟩, ⟨pt, mle X pt⟩, ts') ∧
      ((∀ r ∈ proof.sumcheck.point ++ pt, ∀ k : ℕ, k ≤ 3 → r ≠ (k : F)) → eqPoly (proof.sumcheck.point ++ P.drop c) pt * mle X pt ≠ 0 →
        verifyLogitsRest T val s c outputs proof diff ts = some (⟨P.drop c, mle M (P.drop c)⟩, ⟨pt, mle X pt⟩, ts')) := by
  intro idx M diff
  have hidx : ∀ t ∈ idx, t < 2 ^ c := by
    intro t ht
    obtain ⟨u, hu, rfl⟩ := List.mem_map.mp ht
    exact hout u hu
  have hil : idx.length = 2 ^ s := by simpa [idx] using hl
  have hrow : (P.drop c).length = s := by simp; omega
  have hMl : M.length = 2 ^ s := by simp [M, pickedEntries, hil]
  obtain ⟨red, hr1, hr2, hr3⟩ := mle_reducedMax c s X hX idx hil hidx (P.drop c) hrow
  have hol : (oneHot (2 ^ c) idx : List F).length = 2 ^ (c + s) := by rw [oneHot_length, hil, pow_add, mul_comm]
  obtain ⟨sc1, ts1, hp1, hpl1, hpv1⟩ := proveProduct_spec T threads ht c (fun k h1 h2 => hchar k h1 (by omega)) red (List.replicate (2 ^ c) 1) hr2 (by simp) ts
  have hgap : mle (rowGaps (2 ^ c) M X) P = mle M (P.drop c) - mle X P := by
    have := mle_rowGaps c s M X hMl (P.take c) (P.drop c) (by simp; omega) hrow
    rwa [List.take_append_drop] at this
  obtain ⟨ic, hic⟩ : ∃ ic : Claim F, ic = ⟨P, mle M (P.drop c) - diff.eval⟩ := ⟨_, rfl⟩
  have hice : ic.eval = mle X P := by rw [hic]; simp only [diff]; rw [hgap]; ring
  rcases hsq : squeezeChallenge T ic ts1 with ⟨ch, ts2⟩
  obtain ⟨heap, hheap⟩ : ∃ heap : ℕ → Mle F, heap = fun a =>
    if a = 0 then ⟨c + s, X⟩ else if a = 1 then ⟨c + s, oneHot (2 ^ c) idx⟩ else if a = 2 then ⟨c + s, computeBetas (sc1.point ++ P.drop c)⟩
    else if a = 3 then ⟨c + s, computeBetas P⟩ else ⟨c + s, X⟩ := ⟨_, rfl⟩
  have hpr : (sc1.point ++ P.drop c).length = c + s := by rw [List.length_append, hpl1, hrow]
  have htab : ∀ a, (heap a).numVars = c + s ∧ (heap a).evals.length = 2 ^ (c + s) := by
    intro a
    rw [hheap]
    simp only
    split
    · exact ⟨rfl, hX⟩
    · split
      · exact ⟨rfl, hol⟩
      · split
        · exact ⟨rfl, by simp only; rw [computeBetas_length, hpr]⟩
        · split
          · exact ⟨rfl, by simp only; rw [computeBetas_length, hP]⟩
          · exact ⟨rfl, hX⟩
  obtain ⟨sc2, ts3, hp2, hpl2, hpv2⟩ := proveTerms_spec T threads ht heap (c + s) htab [(1, [0, 1, 2]), (ch, [3, 4])] (by simp) (by simp) _
    (buildVP_logits heap (c + s) (fun a => (htab a).1) ch) hchar ts2
  simp only at hp2 hpv2
  have hval : ∀ pt : List F, pt.length = c + s → termsVal heap [(1, [0, 1, 2]), (ch, [3, 4])] pt
      = eqPoly (sc1.point ++ P.drop c) pt * mle X pt * mle (oneHot (2 ^ c) idx) pt + ch * (eqPoly P pt * mle X pt) := by
    intro pt hpt
    have e2 := mle_computeBetas (sc1.point ++ P.drop c) pt (by rw [hpr, hpt])
    have e3 := mle_computeBetas P pt (by rw [hP, hpt])
    simp [termsVal, hheap, e2, e3]
    ring
  have hev0 : ((((⟨3, c + s, [(1, [0, 1, 2]), (ch, [3, 4])], [0, 1, 2, 3, 4], [(4, 4), (3, 3), (2, 2), (1, 1), (0, 0)]⟩ : VirtualPoly F).flattened.map
      (fun a => mle (heap a).evals sc2.point)))[0]?) = some (mle X sc2.point) := by simp [hheap]
  refine ⟨⟨logup, mle M (P.drop c), sc1, mle red sc1.point, sc2, mle X sc2.point⟩, sc2.point, ts3, hpl2, ?_, ?_⟩
  · unfold proveLogits logitsSplit
    simp only [diff]
    rw [if_pos (by omega), hP, Nat.add_sub_cancel]
    have hme : (Mle.ofEvals s M).bind (fun m => m.evaluate (P.drop c)) = some (mle M (P.drop c)) := by
      have := evaluateTensor_eq M (P.drop c) (by rw [hrow, hMl])
      rw [Mle.ofEvals, if_pos hMl, Option.bind_some, evaluate_eq ⟨s, M⟩ hMl _ hrow]
    rw [Mle.ofEvals, if_pos hMl, Option.bind_some] at hme
    have hoh : oneHotOutput (F := F) (2 ^ c) (2 ^ (c + s)) idx = some (oneHot (2 ^ c) idx) := by
      have := oneHotOutput_spec (F := F) (2 ^ c) idx hidx
      rwa [hil, ← pow_add, add_comm] at this
    have hr1' : reducedMax (2 ^ c) (computeBetas (P.drop c)) idx M = some red := hr1
    simp only [Option.bind_eq_bind, Option.bind_some, Mle.ofEvals, if_pos hMl, hme, hr1', hp1, if_pos hX, hoh, List.getElem?_cons_zero]
    have hic' : (⟨P, mle M (P.drop c) - mle (rowGaps (2 ^ c) M X) P⟩ : Claim F) = ic := hic.symm
    rw [hic', hsq]
    simp only
    rw [← hheap, hp2]
    simp [hheap]
  · intro hco hnz
    have hv1 := hpv1 (fun r hr k hk => hco r (by simp [hr]) k (by omega))
    have hv2 := hpv2 (fun r hr k hk => hco r (by simp [hr]) k hk)
    rw [hval _ hpl2] at hv2
    have hone : ∀ pt : List F, pt.length = c → mle (List.replicate (2 ^ c) (1 : F)) pt = 1 := fun pt hpt => mle_replicate c 1 pt hpt
    rw [hone _ hpl1, mul_one] at hv1
    have hs1 : (cubeSum c fun pt => mle red pt * mle (List.replicate (2 ^ c) 1) pt) = mle M (P.drop c) := by
      rw [← mle_picked c s X hX idx hil hidx _ hrow]
      unfold cubeSum
      apply Finset.sum_congr rfl
      intro b _
      beta_reduce
      rw [hone _ (bitsPoint_length c b), mul_one, hr3 _ (bitsPoint_length c b)]
    have hs2 : cubeSum (c + s) (termsVal heap [(1, [0, 1, 2]), (ch, [3, 4])]) = mle red sc1.point + ch * ic.eval := by
      have e1 := sum_beta_product (sc1.point ++ P.drop c) X (oneHot (2 ^ c) idx) (by rw [hpr, hX]) (by rw [hpr, hol])
      have e2 := sum_beta_single P X
      rw [hpr] at e1
      rw [hP] at e2
      rw [hr3 _ hpl1, hice, ← e1, ← e2]
      unfold cubeSum
      rw [Finset.mul_sum, ← Finset.sum_add_distrib]
      apply Finset.sum_congr rfl
      intro b _
      rw [hval _ (bitsPoint_length _ b)]
    rw [hs1] at hv1
    rw [hs2] at hv2
    unfold verifyLogitsRest logitsSplit
    simp only [diff]
    rw [if_pos (by omega), hP, Nat.add_sub_cancel]
    have hic' : (⟨P, mle M (P.drop c) - mle (rowGaps (2 ^ c) M X) P⟩ : Claim F) = ic := hic.symm
    simp only [Option.bind_eq_bind, Option.bind_some, hv1, if_true]
    rw [hic', hsq]
    have hice' : mle M (P.drop c) - mle (rowGaps (2 ^ c) M X) P = ic.eval := by rw [hic]
    simp only [hice', hv2, Option.bind_some]
    rw [identityEval_eq' (sc1.point ++ P.drop c) sc2.point (by rw [hpr, hpl2]), identityEval_eq' P sc2.point (by rw [hP, hpl2]), if_neg hnz]
    have hout' := (verifyLogitsOutput_iff val s c hc outputs hl hout ⟨sc2.point, (eqPoly (sc1.point ++ P.drop c) sc2.point * mle X sc2.point * mle (oneHot (2 ^ c) idx) sc2.point
      + ch * (eqPoly P sc2.point * mle X sc2.point) - ch * mle X sc2.point * eqPoly P sc2.point) * (eqPoly (sc1.point ++ P.drop c) sc2.point * mle X sc2.point)⁻¹⟩ hpl2).mpr (by
        simp only
        rw [mul_inv_eq_iff_eq_mul₀ hnz]
        ring)
    rw [hout']
    rfl

/-- An honest proof for two rows of two columns, accepted. -/
example : ((proveLogits (F := ℚ) 1 (tape ℚ) 1 1 ⟨[], [], [], [], false⟩ ⟨[11, 13], mle (rowGaps 2 [5, 7] [3, 5, 7, 2]) [11, 13]⟩ [3, 5, 7, 2] [5, 7] [1, 0] [4, 9, 8, 6]).bind fun r =>
    verifyLogitsRest (tape ℚ) (fun x => x.num.toNat) 1 1 [1, 0] r.1 ⟨[11, 13], mle (rowGaps 2 [5, 7] [3, 5, 7, 2]) [11, 13]⟩ [4, 9, 8, 6]).isSome := by decide +kernel

/-- C75 is false for inputs that are all zero: the verifier inverts a multiple of the input's evaluation, so it never accepts a claim of zero on the input; whatever it accepts leaves a false claim. -/
theorem C75_zero_false (T : Transcript F) (val : F → ℕ) (s c n : ℕ) (outputs : List F) (proof : LogitsProof F) (claim : Claim F) (ts ts' : T.State) (mx inp : Claim F)
    (h : verifyLogitsRest T val s c outputs proof claim ts = some (mx, inp, ts')) : inp.eval ≠ mle (List.replicate n 0) inp.point := by
  unfold verifyLogitsRest at h
  simp only [Option.bind_eq_bind, Option.bind_eq_some_iff] at h
  obtain ⟨⟨col, row⟩, -, ⟨sub1, ts1⟩, -, h⟩ := h
  simp only at h
  split at h
  · rw [Option.bind_eq_some_iff] at h
    obtain ⟨⟨sub2, ts2⟩, -, h⟩ := h
    simp only at h
    split at h
    · simp at h
    · rename_i hnz
      simp only [Option.bind_eq_some_iff, Option.some.injEq, Prod.mk.injEq] at h
      obtain ⟨u, -, -, rfl, -⟩ := h
      have hz : mle (List.replicate n (0 : F)) sub2.point = 0 := by
        unfold mle
        apply Finset.sum_eq_zero
        intro b _
        have : (List.replicate n (0 : F)).getD b 0 = 0 := by
          by_cases hb : b < n
          · rw [List.getD_eq_getElem _ _ (by simpa using hb)]; simp
          · rw [List.getD_eq_default _ _ (by simpa using hb)]
        rw [this, zero_mul]
      simp only
      rw [hz]
      intro h0
      exact hnz (by rw [h0, mul_zero])
  · simp at h

omit [DecidableEq F] in
theorem bitSequence_mod (a b v : ℕ) (h : a % 2 ^ v = b % 2 ^ v) : bitSequence (F := F) a v = bitSequence b v := by
  by_cases h64 : v ≤ 64
  · rw [bitSequence_eq _ _ h64, bitSequence_eq _ _ h64, bitsPoint_mod, h, ← bitsPoint_mod]
  · unfold bitSequence; simp [h64]

/-- C75 is false for outputs beyond the number of columns: the check of the public outputs depends on them only modulo the (padded) number of columns. -/
theorem C75_alias_false (val : F → ℕ) (s c : ℕ) (outputs outputs' : List F) (hl : outputs.length = 2 ^ s)
    (h : List.Forall₂ (fun t t' => val t % 2 ^ c = val t' % 2 ^ c) outputs outputs') (claim : Claim F) (hp : claim.point.length = c + s) :
    verifyLogitsOutput val outputs claim = verifyLogitsOutput val outputs' claim := by
  have hl' : outputs'.length = 2 ^ s := by rw [← h.length_eq, hl]
  unfold verifyLogitsOutput logitsSplit
  rw [hl, hl', Nat.log2_two_pow, if_pos rfl, if_pos rfl, if_pos (by omega), hp, Nat.add_sub_cancel]
  simp only [Option.bind_eq_bind, Option.bind_some]
  have hts : tokenSum val outputs (claim.point.take c) (claim.point.drop c) = tokenSum val outputs' (claim.point.take c) (claim.point.drop c) := by
    have hc : (claim.point.take c).length = c := by simp; omega
    unfold tokenSum
    rw [hc]
    generalize computeBetas (claim.point.drop c) = bs
    generalize (0 : F) = acc
    clear hl hl'
    induction h generalizing bs acc with
    | nil => rfl
    | @cons t t' as bs' hab _ ih =>
      cases bs with
      | nil => rfl
      | cons b bs =>
        simp only [List.zip_cons_cons, List.foldlM_cons, bitSequence_mod (F := F) _ _ _ hab]
        cases bitSequence (F := F) (val t') c with
        | none => rfl
        | some x => simp only [Option.bind_eq_bind, Option.bind_some]; exact ih _ _
  rw [hts]

/-- Output 4 passes for column 0 of four. -/
example : verifyLogitsOutput (F := ℚ) (fun x => x.num.toNat) [4] ⟨[5, 7], (1 - 5) * (1 - 7)⟩ = some () ∧
    verifyLogitsOutput (F := ℚ) (fun x => x.num.toNat) [0] ⟨[5, 7], (1 - 5) * (1 - 7)⟩ = some () := by decide +kernel

end Props
