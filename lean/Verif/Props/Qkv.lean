import Verif.Lemmas.Qkv
import Verif.Spec.Qkv
import Verif.Props.SamePoly
import Verif.Lemmas.Conv

/-!
C77: the query, key and value projections.
-/

namespace Props
open Spec Model Lemmas

/-- C77, inference: on tensors of consistent shapes the layer returns the three projections `X · W + b`. -/
theorem C77_evaluate {α : Type} [Semiring α] (m e n : ℕ) (hn : 0 < n) (x wq bq wk bk wv bv : List α) (hx : x.length = m * e)
    (hq : wq.length = e * n ∧ bq.length = n) (hk : wk.length = e * n ∧ bk.length = n) (hv : wv.length = e * n ∧ bv.length = n) :
    ∃ q k v, qkvEvaluate ⟨[m, e], x⟩ ⟨[e, n], wq⟩ ⟨[n], bq⟩ ⟨[e, n], wk⟩ ⟨[n], bk⟩ ⟨[e, n], wv⟩ ⟨[n], bv⟩ = some (⟨[m, n], q⟩, ⟨[m, n], k⟩, ⟨[m, n], v⟩) ∧
      IsProjection m e n x wq bq q ∧ IsProjection m e n x wk bk k ∧ IsProjection m e n x wv bv v := by
  obtain ⟨q, q1, q2⟩ := qkvProject_spec ⟨[m, e], x⟩ ⟨[e, n], wq⟩ ⟨[n], bq⟩ m e n hn rfl rfl rfl hx hq.1 hq.2
  obtain ⟨k, k1, k2⟩ := qkvProject_spec ⟨[m, e], x⟩ ⟨[e, n], wk⟩ ⟨[n], bk⟩ m e n hn rfl rfl rfl hx hk.1 hk.2
  obtain ⟨v, v1, v2⟩ := qkvProject_spec ⟨[m, e], x⟩ ⟨[e, n], wv⟩ ⟨[n], bv⟩ m e n hn rfl rfl rfl hx hv.1 hv.2
  refine ⟨q, k, v, ?_, q2, k2, v2⟩
  unfold qkvEvaluate
  simp [q1, k1, v1]

/-- C77, padding: with padded weights and bias, and an input matrix that agrees with the original one on the original rows and columns (whatever it holds elsewhere), a projection computes the original
results, spread over the padded heads: entry `(i, h·hd' + d)` is the original entry `(i, h·hd + d)`. In the padding columns of every row, original or not, it computes zero. -/
theorem C77_padding {α : Type} [Semiring α] (m e H hd m' e' : ℕ) (he : 0 < e) (hH : 0 < H) (hhd : 0 < hd) (hm : m ≤ m') (hee : e ≤ e') (hpad : padMinimum e' = e')
    (x w b : List α) (hx : x.length = m * e) (hw : w.length = e * (H * hd)) (hb : b.length = H * hd) (x' : List α) (hx' : x'.length = m' * e')
    (hsame : ∀ i k, i < m → k < e → x'.getD (i * e' + k) 0 = x.getD (i * e + k) 0) (out : List α) (hout : IsProjection m e (H * hd) x w b out) :
    ∃ w' b' H' hd' out', H ≤ H' ∧ hd ≤ hd' ∧ padQkvWeight e' H hd ⟨[e, H * hd], w⟩ = some w' ∧ padQkvBias H hd ⟨[H * hd], b⟩ = some b' ∧
      qkvProject ⟨[m', e'], x'⟩ w' b' = some ⟨[m', H' * hd'], out'⟩ ∧ out'.length = m' * (H' * hd') ∧
      (∀ i h d, i < m → h < H → d < hd → out'.getD (i * (H' * hd') + (h * hd' + d)) 0 = out.getD (i * (H * hd) + (h * hd + d)) 0) ∧
      (∀ i h d, i < m' → h < H' → d < hd' → ¬ (h < H ∧ d < hd) → out'.getD (i * (H' * hd') + (h * hd' + d)) 0 = 0) := by
  obtain ⟨w', w1, w2, w3⟩ := padQkvWeight_spec e' H hd hH hhd ⟨[e, H * hd], w⟩ e he hee rfl hw
  obtain ⟨b', b1, b2, b3⟩ := padQkvBias_spec H hd hH hhd ⟨[H * hd], b⟩ rfl hb
  have hH' := (padMinimum_ge H).1
  have hd' := (padMinimum_ge hd).1
  rw [hpad] at w1 w2 w3
  obtain ⟨H', hHe⟩ : ∃ H', H' = padMinimum H := ⟨_, rfl⟩
  obtain ⟨D, hDe⟩ : ∃ D, D = padMinimum hd := ⟨_, rfl⟩
  rw [← hHe, ← hDe] at w1 w2 w3 b1 b2 b3
  rw [← hHe] at hH'
  rw [← hDe] at hd'
  have hlt : ∀ a c A C : ℕ, a < A → c < C → a * C + c < A * C := by
    intro a c A C ha hc
    have : (a + 1) * C ≤ A * C := Nat.mul_le_mul_right _ ha
    rw [add_mul, one_mul] at this
    omega
  obtain ⟨out', o1, o2, o3⟩ := qkvProject_spec ⟨[m', e'], x'⟩ ⟨[e', H' * D], w'⟩ ⟨[H' * D], b'⟩ m' e' (H' * D) (Nat.mul_pos (by omega) (by omega)) rfl rfl rfl hx' w2 b2
  refine ⟨_, _, H', D, out', hH', hd', w1, b1, o1, o2, ?_, ?_⟩
  · intro i h d hi hh hdd
    rw [o3 i _ (by omega) (hlt h d H' D (by omega) (by omega)), hout.2 i _ hi (hlt h d H hd hh hdd)]
    simp only
    rw [b3 h d (by omega) (by omega), if_pos ⟨hh, hdd⟩]
    congr 1
    rw [← Finset.sum_subset (Finset.range_mono hee)]
    · apply Finset.sum_congr rfl
      intro k hk
      have hk := Finset.mem_range.mp hk
      rw [hsame i k hi hk, w3 k h d (by omega) (by omega) (by omega), if_pos ⟨hk, hh, hdd⟩]
    · intro k hk hk'
      have hk := Finset.mem_range.mp hk
      rw [w3 k h d hk (by omega) (by omega), if_neg (fun hc => hk' (Finset.mem_range.mpr hc.1)), mul_zero]
  · intro i h d hi hh hdd hn
    rw [o3 i _ hi (hlt h d H' D hh hdd)]
    simp only
    rw [b3 h d hh hdd, if_neg hn, add_zero]
    apply Finset.sum_eq_zero
    intro k hk
    rw [w3 k h d (Finset.mem_range.mp hk) hh hdd, if_neg (fun hc => hn hc.2), mul_zero]

/-- C77, the shape announced for the padded outputs: it has as many columns as the padded weights exactly if the model has at least three heads of dimension at least three. -/
theorem C77_announced_shape_iff (rows H hd : ℕ) (hH : 0 < H) (hhd : 0 < hd) :
    qkvPaddedOutputShape rows H hd = [nextPow2 rows, padMinimum H * padMinimum hd] ↔ 3 ≤ H ∧ 3 ≤ hd := by
  have key : ∀ n : ℕ, (3 ≤ n → padMinimum n = nextPow2 n) ∧ (n < 3 → nextPow2 n < padMinimum n) := by
    intro n
    constructor
    · intro h
      have h1 := le_nextPow2 n
      have h2 : 4 ≤ nextPow2 n := by
        unfold nextPow2 at h1 ⊢
        by_contra hc
        have h3 : Nat.clog 2 n < 2 := by
          by_contra h4
          exact hc (Nat.pow_le_pow_right (n := 2) (by omega) (by omega : 2 ≤ Nat.clog 2 n))
        have : 2 ^ Nat.clog 2 n ≤ 2 ^ 1 := Nat.pow_le_pow_right (by omega) (by omega)
        omega
      unfold padMinimum
      simp only
      rw [if_neg (by omega)]
    · intro h
      have h1 : nextPow2 n ≤ 2 ^ 1 := nextPow2_min n 1 (by omega)
      unfold padMinimum
      simp only
      rw [if_pos (by omega)]
      omega
  have hprod : nextPow2 (nextPow2 hd * nextPow2 H) = nextPow2 H * nextPow2 hd := by
    conv_lhs => unfold nextPow2
    rw [← pow_add, Nat.clog_pow 2 _ (by omega), pow_add, mul_comm]
    rfl
  unfold qkvPaddedOutputShape
  rw [hprod]
  simp only [List.cons.injEq, true_and, and_true]
  have g1 := (padMinimum_ge H).2
  have g2 := (padMinimum_ge hd).2
  have p1 := nextPow2_pos H
  have p2 := nextPow2_pos hd
  constructor
  · intro h
    by_contra hc
    rcases Nat.lt_or_ge H 3 with hlt | hge
    · have := Nat.mul_lt_mul_of_lt_of_le ((key H).2 hlt) g2 (by omega)
      omega
    · have := Nat.mul_lt_mul_of_le_of_lt g1 ((key hd).2 (by omega)) (by omega)
      omega
  · rintro ⟨h1, h2⟩
    rw [(key H).1 h1, (key hd).1 h2]

variable {F : Type} [Field F] [DecidableEq F]

/-- C77, consequence: if the number of columns announced differs from the number of columns of the claims' matrix, no proof of any claim on the outputs is accepted. -/
theorem C77_wrong_columns_rejected (T : Transcript F) (r k c c' : ℕ) (hc : c ≠ c') (cq ck cv : Claim F) (hq : cq.point.length = r + c') (proof : QkvProof F) (ts : T.State) :
    verifyQkv T r k c cq ck cv proof ts = none := by
  have : ∀ pt e, qkvClaims r c cq pt e = none := by
    intro pt e
    unfold qkvClaims qkvSplit
    rw [if_neg (by omega)]
    rfl
  unfold verifyQkv
  simp only [this, Option.bind_eq_bind, Option.bind_none]
  cases (([cq, ck, cv].zip proof.preBias).mapM fun ce => (qkvSplit r c ce.1.point).bind fun x => some (⟨x.2, ce.1.eval - ce.2⟩ : Claim F)) <;> simp

/-- C77, honest proofs: for every input, weights and biases of sizes that are powers of two and true claims on the three outputs, the prover produces a proof. The verifier accepts it, unless a
challenge of one of the two sum-checks is 0, 1 or 2, and hands on true claims: on the three weights, the three biases and the input. -/
theorem C77_complete (T : Transcript F) (threads : ℕ) (ht : 0 < threads) (hchar : ∀ k : ℕ, 0 < k → k ≤ 2 → (k : F) ≠ 0) (r k c : ℕ)
    (x wq wk wv bq bk bv : List F) (hx : x.length = 2 ^ (k + r)) (hwq : wq.length = 2 ^ (c + k)) (hwk : wk.length = 2 ^ (c + k)) (hwv : wv.length = 2 ^ (c + k))
    (hbq : bq.length = 2 ^ c) (hbk : bk.length = 2 ^ c) (hbv : bv.length = 2 ^ c) (pq pk pv : List F) (hpq : pq.length = r + c) (hpk : pk.length = r + c) (hpv : pv.length = r + c) (ts : T.State) :
    let cq : Claim F := ⟨pq, mle (matmulOut r k c false x wq bq) pq⟩
    let ck : Claim F := ⟨pk, mle (matmulOut r k c false x wk bk) pk⟩
    let cv : Claim F := ⟨pv, mle (matmulOut r k c false x wv bv) pv⟩
    ∃ proof common cx ts', proveQkv threads T r k c x wq wk wv bq bk bv cq ck cv ts = some (proof, common, cx, ts') ∧
      common.map Prod.fst = ["WeightQ", "WeightK", "WeightV", "BiasQ", "BiasK", "BiasV"] ∧
      (∀ p ∈ (common.map Prod.snd).zip [wq, wk, wv, bq, bk, bv], p.1.eval = mle p.2 p.1.point) ∧ cx.eval = mle x cx.point ∧ cx.point.length = k + r ∧
      ((∀ y ∈ proof.sumcheck.point ++ proof.aggregation.sumcheck.point, ∀ j : ℕ, j ≤ 2 → y ≠ (j : F)) →
        verifyQkv T r k c cq ck cv proof ts = some (common, cx, ts')) := by
  intro cq ck cv
  have id : ∀ (w b p : List F), p.length = r + c → mle (matmulOut r k c false x w b) p - mle b (p.take c)
      = cubeSum k fun pt => mle x (pt ++ p.drop c) * mle w (p.take c ++ pt) := by
    intro w b p hp
    have := matmul_identity r k c false x w b (p.take c) (p.drop c) (by simp; omega) (by simp; omega)
    rw [List.take_append_drop] at this
    rw [this]; simp
  obtain ⟨xq, mq, q1, q2, q3, q4⟩ := qkvTables_spec r k c x wq hx hwq cq hpq
  obtain ⟨xk, mk, k1, k2, k3, k4⟩ := qkvTables_spec r k c x wk hx hwk ck hpk
  obtain ⟨xv, mv, v1, v2, v3, v4⟩ := qkvTables_spec r k c x wv hx hwv cv hpv
  have bq1 := qkvBiasClaim_spec r c cq bq hbq hpq
  have bk1 := qkvBiasClaim_spec r c ck bk hbk hpk
  have bv1 := qkvBiasClaim_spec r c cv bv hbv hpv
  obtain ⟨eq, heq⟩ : ∃ eq, eq = cq.eval - mle bq (cq.point.take c) := ⟨_, rfl⟩
  obtain ⟨ek, hek⟩ : ∃ ek, ek = ck.eval - mle bk (ck.point.take c) := ⟨_, rfl⟩
  obtain ⟨ev, hev⟩ : ∃ ev, ev = cv.eval - mle bv (cv.point.take c) := ⟨_, rfl⟩
  rw [← heq] at bq1; rw [← hek] at bk1; rw [← hev] at bv1
  obtain ⟨c1, c2, ts1, hchl⟩ : ∃ c1 c2 ts1, qkvChallenges T [cq, ck, cv] [eq, ek, ev] ts = (c1, c2, ts1) := ⟨_, _, _, rfl⟩
  obtain ⟨heap, hheap⟩ : ∃ heap : ℕ → Mle F, heap = fun a => if a = 0 then ⟨k, xq⟩ else if a = 1 then ⟨k, mq⟩ else if a = 2 then ⟨k, xk⟩ else if a = 3 then ⟨k, mk⟩ else if a = 4 then ⟨k, xv⟩ else ⟨k, mv⟩ := ⟨_, rfl⟩
  have htab : ∀ a, (heap a).numVars = k ∧ (heap a).evals.length = 2 ^ k := by
    intro a
    rw [hheap]
    simp only
    split_ifs <;> refine ⟨rfl, ?_⟩ <;> assumption
  obtain ⟨sc, ts2, hp, hpl, hpv'⟩ := proveTerms_spec T threads ht heap k htab [(1, [0, 1]), (c1, [2, 3]), (c2, [4, 5])] (by simp) (by simp) _
    (buildVP_qkv heap k (fun a => (htab a).1) c1 c2) hchar ts1
  have hval : ∀ pt, termsVal heap [(1, [0, 1]), (c1, [2, 3]), (c2, [4, 5])] pt = mle xq pt * mle mq pt * 1 + mle xk pt * mle mk pt * c1 + mle xv pt * mle mv pt * c2 := by
    intro pt
    simp [termsVal, hheap]
    ring
  have hsum : cubeSum k (termsVal heap [(1, [0, 1]), (c1, [2, 3]), (c2, [4, 5])]) = 0 + eq * 1 + ek * c1 + ev * c2 := by
    rw [heq, hek, hev, id wq bq pq hpq, id wk bk pk hpk, id wv bv pv hpv]
    unfold cubeSum
    rw [Finset.sum_mul, Finset.sum_mul, Finset.sum_mul, zero_add, ← Finset.sum_add_distrib, ← Finset.sum_add_distrib]
    apply Finset.sum_congr rfl
    intro b _
    have hb := bitsPoint_length (F := F) k b
    rw [hval, (q4 _ hb).1, (q4 _ hb).2, (k4 _ hb).1, (k4 _ hb).2, (v4 _ hb).1, (v4 _ hb).2]
  have clq := qkvClaims_spec r c cq hpq sc.point (mle xq sc.point, mle mq sc.point)
  have clk := qkvClaims_spec r c ck hpk sc.point (mle xk sc.point, mle mk sc.point)
  have clv := qkvClaims_spec r c cv hpv sc.point (mle xv sc.point, mle mv sc.point)
  obtain ⟨agg, ts3, a1, a2, a3, a4⟩ := C40_same_poly_complete T threads ht hchar (k + r) x hx
    [⟨sc.point ++ cq.point.drop c, mle xq sc.point⟩, ⟨sc.point ++ ck.point.drop c, mle xk sc.point⟩, ⟨sc.point ++ cv.point.drop c, mle xv sc.point⟩]
    (by simp [cq, ck, cv]; omega) (by simp [(q4 _ hpl).1, (k4 _ hpl).1, (v4 _ hpl).1]) ts2
  refine ⟨⟨sc, agg, [eq, ek, ev], (mle xq sc.point, mle mq sc.point), (mle xk sc.point, mle mk sc.point), (mle xv sc.point, mle mv sc.point)⟩,
    [("WeightQ", ⟨pq.take c ++ sc.point, mle mq sc.point⟩), ("WeightK", ⟨pk.take c ++ sc.point, mle mk sc.point⟩), ("WeightV", ⟨pv.take c ++ sc.point, mle mv sc.point⟩),
      ("BiasQ", ⟨pq.take c, mle bq (pq.take c)⟩), ("BiasK", ⟨pk.take c, mle bk (pk.take c)⟩), ("BiasV", ⟨pv.take c, mle bv (pv.take c)⟩)],
    ⟨agg.sumcheck.point, mle x agg.sumcheck.point⟩, ts3, ?_, rfl, ?_, rfl, a2, ?_⟩
  · unfold proveQkv
    simp only [bq1, bk1, bv1, hchl, q1, k1, v1, Option.bind_eq_bind, Option.bind_some]
    rw [← hheap, hp]
    simp only [Option.bind_some, List.map_cons, List.map_nil, hheap]
    norm_num
    simp only [clq, clk, clv, Option.bind_some, a1, a3]
    rfl
  · simp only [List.map_cons, List.map_nil, List.zip_cons_cons, List.zip_nil_left, List.mem_cons, List.not_mem_nil, or_false, forall_eq_or_imp, forall_eq]
    exact ⟨(q4 _ hpl).2, (k4 _ hpl).2, (v4 _ hpl).2, trivial, trivial, trivial⟩
  · intro hch
    have hv := hpv' (fun y hy => hch y (List.mem_append_left _ hy))
    rw [hsum, hval] at hv
    simp only at hv
    have hs : ∀ p : List F, p.length = r + c → qkvSplit r c p = some (p.drop c, p.take c) := fun p hp => by unfold qkvSplit; rw [if_pos hp]
    unfold verifyQkv
    simp only [List.zip_cons_cons, List.zip_nil_left, List.mapM_cons, List.mapM_nil, hs _ hpq, hs _ hpk, hs _ hpv, cq, ck, cv, Option.bind_eq_bind, Option.bind_some, Option.pure_def]
    simp only [cq, ck, cv] at hchl clq clk clv a4
    rw [hchl]
    simp only [List.zip_cons_cons, List.zip_nil_left, List.foldl_cons, List.foldl_nil, hv, Option.bind_some, clq, clk, clv]
    rw [if_pos (by ring), a4 (fun y hy => hch y (List.mem_append_right _ hy))]
    simp only [heq, hek, hev, cq, ck, cv, sub_sub_cancel, List.cons_append, List.nil_append, List.zip_cons_cons, List.zip_nil_left, Option.bind_some]

/-- What the verifier has checked when it accepts. -/
theorem verifyQkv_inv (T : Transcript F) (r k c : ℕ) (cq ck cv : Claim F) (proof : QkvProof F) (p0 p1 p2 : F) (rest : List F) (hpre : proof.preBias = p0 :: p1 :: p2 :: rest) (ts ts' : T.State) (common : List (String × Claim F))
    (cx : Claim F) (h : verifyQkv T r k c cq ck cv proof ts = some (common, cx, ts')) (c1 c2 : F) (ts1 : T.State) (hch : qkvChallenges T [cq, ck, cv] proof.preBias ts = (c1, c2, ts1)) :
    cq.point.length = r + c ∧ ck.point.length = r + c ∧ cv.point.length = r + c ∧ ∃ sub ts2, verify T (p0 + c1 * p1 + c2 * p2) proof.sumcheck 2 k ts1 = some (sub, ts2) ∧
      proof.ind.1.1 * proof.ind.1.2 + c1 * (proof.ind.2.1.1 * proof.ind.2.1.2) + c2 * (proof.ind.2.2.1 * proof.ind.2.2.2) = sub.expected ∧
      verifySamePoly T (k + r) [⟨sub.point ++ cq.point.drop c, proof.ind.1.1⟩, ⟨sub.point ++ ck.point.drop c, proof.ind.2.1.1⟩, ⟨sub.point ++ cv.point.drop c, proof.ind.2.2.1⟩] proof.aggregation ts2
        = some (cx, ts') ∧
      common = [("WeightQ", ⟨cq.point.take c ++ sub.point, proof.ind.1.2⟩), ("WeightK", ⟨ck.point.take c ++ sub.point, proof.ind.2.1.2⟩), ("WeightV", ⟨cv.point.take c ++ sub.point, proof.ind.2.2.2⟩),
        ("BiasQ", ⟨cq.point.take c, cq.eval - p0⟩), ("BiasK", ⟨ck.point.take c, ck.eval - p1⟩), ("BiasV", ⟨cv.point.take c, cv.eval - p2⟩)] := by
  have hs : ∀ p : List F, ∀ a, qkvSplit r c p = some a → p.length = r + c ∧ a = (p.drop c, p.take c) := by
    intro p a ha
    unfold qkvSplit at ha
    split at ha
    · rename_i hl; exact ⟨hl, by simpa using ha.symm⟩
    · simp at ha
  have hcl : ∀ (cl : Claim F) pt e o, qkvClaims r c cl pt e = some o → cl.point.length = r + c := by
    intro cl pt e o ho
    unfold qkvClaims at ho
    simp only [Option.bind_eq_bind, Option.bind_eq_some_iff] at ho
    obtain ⟨a, ha, -⟩ := ho
    exact (hs _ _ ha).1
  unfold verifyQkv at h
  simp only [Option.bind_eq_bind, Option.bind_eq_some_iff] at h
  obtain ⟨bs, hbs, h⟩ := h
  rw [hch] at h
  simp only at h
  obtain ⟨⟨sub, ts2⟩, h1, ⟨iq, wq⟩, h2, ⟨ik, wk⟩, h3, ⟨iv, wv⟩, h4, h⟩ := h
  simp only at h2 h3 h4 h
  have l1 := hcl _ _ _ _ h2
  have l2 := hcl _ _ _ _ h3
  have l3 := hcl _ _ _ _ h4
  rw [qkvClaims_spec r c _ l1] at h2
  rw [qkvClaims_spec r c _ l2] at h3
  rw [qkvClaims_spec r c _ l3] at h4
  simp only [Option.some.injEq, Prod.mk.injEq] at h2 h3 h4
  obtain ⟨rfl, rfl⟩ := h2
  obtain ⟨rfl, rfl⟩ := h3
  obtain ⟨rfl, rfl⟩ := h4
  have hsp : ∀ p : List F, p.length = r + c → qkvSplit r c p = some (p.drop c, p.take c) := fun p hp => by unfold qkvSplit; rw [if_pos hp]
  rw [hpre] at hbs h1
  simp only [List.zip_cons_cons, List.zip_nil_left, List.mapM_cons, List.mapM_nil, hsp _ l1, hsp _ l2, hsp _ l3, Option.bind_eq_bind, Option.bind_some, Option.pure_def, Option.some.injEq] at hbs
  simp only [List.zip_cons_cons, List.zip_nil_right, List.foldl_cons, List.foldl_nil] at h1
  split at h
  swap
  · simp at h
  rename_i he
  simp only [Option.bind_eq_some_iff] at h
  obtain ⟨⟨agg, ts3⟩, h5, h6⟩ := h
  simp only [Option.some.injEq, Prod.mk.injEq] at h6
  obtain ⟨h6, rfl, rfl⟩ := h6
  refine ⟨l1, l2, l3, sub, ts2, ?_, ?_, h5, ?_⟩
  · rw [← h1]; congr 1; ring
  · rw [← he]; ring
  · rw [← h6, ← hbs]; rfl

/-- C77, soundness. Partial: it needs the point of the aggregation's proof to be the point of its challenges, which the verifier does not check (C40). If the verifier accepts, it hands on a claim for each
weight and bias, and these and the claim on the input are true, then the three claims on the outputs are true of `X · W + b`, unless the prover was lucky: the errors of the three claims cancel
in the random combination, a round of one of the two sum-checks went its way, or the errors of the three values of the input cancel in the aggregation. -/
theorem C77_sound_partial (T : Transcript F) (hchar : ∀ k : ℕ, 0 < k → k ≤ 2 → (k : F) ≠ 0) (r k c : ℕ) (x wq wk wv bq bk bv : List F)
    (cq ck cv : Claim F) (proof : QkvProof F) (ts ts' : T.State) (common : List (String × Claim F)) (cx : Claim F)
    (h : verifyQkv T r k c cq ck cv proof ts = some (common, cx, ts'))
    (hcom : ∀ np ∈ [("WeightQ", wq), ("WeightK", wk), ("WeightV", wv), ("BiasQ", bq), ("BiasK", bk), ("BiasV", bv)], ∃ cl, (np.1, cl) ∈ common ∧ cl.eval = mle np.2 cl.point)
    (hcx : cx.eval = mle x cx.point) (c1 c2 : F) (ts1 : T.State) (hch : qkvChallenges T [cq, ck, cv] proof.preBias ts = (c1, c2, ts1)) :
    ∃ claimed sub ts2, verify T claimed proof.sumcheck 2 k ts1 = some (sub, ts2) ∧
      ((∀ claimed' sc ts'', verify T claimed' proof.aggregation.sumcheck 2 (k + r) (T.sampleN 3 ts2).2 = some (sc, ts'') → proof.aggregation.sumcheck.point = sc.point) →
      let dq := cq.eval - mle (matmulOut r k c false x wq bq) cq.point
      let dk := ck.eval - mle (matmulOut r k c false x wk bk) ck.point
      let dv := cv.eval - mle (matmulOut r k c false x wv bv) cv.point
      let inputs : List (Claim F) := [⟨sub.point ++ cq.point.drop c, proof.ind.1.1⟩, ⟨sub.point ++ ck.point.drop c, proof.ind.2.1.1⟩, ⟨sub.point ++ cv.point.drop c, proof.ind.2.2.1⟩]
      (dq = 0 ∧ dk = 0 ∧ dv = 0) ∨
      (¬ (dq = 0 ∧ dk = 0 ∧ dv = 0) ∧ dq + c1 * dk + c2 * dv = 0) ∨
      LuckyRound 2 k (fun pt => mle x (pt ++ cq.point.drop c) * mle wq (cq.point.take c ++ pt) + c1 * (mle x (pt ++ ck.point.drop c) * mle wk (ck.point.take c ++ pt))
        + c2 * (mle x (pt ++ cv.point.drop c) * mle wv (cv.point.take c ++ pt))) proof.sumcheck.proofs sub.point ∨
      ((∃ cl ∈ inputs, cl.eval ≠ mle x cl.point) ∧ (((T.sampleN 3 ts2).1.zip inputs).map fun ac => ac.1 * (ac.2.eval - mle x ac.2.point)).sum = 0) ∨
      LuckyRound 2 (k + r) (fun pt => (((T.sampleN 3 ts2).1.zip inputs).map fun ac => ac.1 * eqPoly ac.2.point pt).sum * mle x pt) proof.aggregation.sumcheck.proofs cx.point) := by
  obtain ⟨p0, p1, p2, rest, hpre⟩ : ∃ p0 p1 p2 rest, proof.preBias = p0 :: p1 :: p2 :: rest := by
    obtain ⟨cl, hcl, -⟩ := hcom ("BiasV", bv) (by simp)
    unfold verifyQkv at h
    simp only [Option.bind_eq_bind, Option.bind_eq_some_iff] at h
    obtain ⟨bs, hbs, h⟩ := h
    rw [hch] at h
    simp only at h
    obtain ⟨⟨sub, ts2⟩, h1, ⟨iq, wq⟩, h2, ⟨ik, wk⟩, h3, ⟨iv, wv⟩, h4, h⟩ := h
    simp only at h
    split at h
    swap
    · simp at h
    simp only [Option.bind_eq_some_iff] at h
    obtain ⟨⟨agg, ts3⟩, h5, h6⟩ := h
    simp only [Option.some.injEq, Prod.mk.injEq] at h6
    obtain ⟨h6, -, -⟩ := h6
    have hbl := mapM_length _ _ _ hbs
    rw [← h6] at hcl
    rcases hp : proof.preBias with _ | ⟨p0, _ | ⟨p1, _ | ⟨p2, rest⟩⟩⟩
    · rw [hp] at hbl
      obtain rfl : bs = [] := List.length_eq_zero_iff.mp (by simpa using hbl)
      simp at hcl
    · rw [hp] at hbl
      obtain ⟨b0, rfl⟩ := List.length_eq_one_iff.mp (by simpa using hbl)
      simp at hcl
    · rw [hp] at hbl
      obtain ⟨b0, b1, rfl⟩ := List.length_eq_two.mp (by simpa using hbl)
      simp at hcl
    · exact ⟨p0, p1, p2, rest, rfl⟩
  obtain ⟨l1, l2, l3, sub, ts2, h1, h2, h3, h4⟩ := verifyQkv_inv T r k c cq ck cv proof p0 p1 p2 rest hpre ts ts' common cx h c1 c2 ts1 hch
  refine ⟨_, sub, ts2, h1, fun hpt => ?_⟩
  intro dq dk dv inputs
  subst h4
  simp only [List.mem_cons, List.not_mem_nil, or_false, forall_eq_or_imp, forall_eq, Prod.mk.injEq, String.reduceEq, false_and, or_false, false_or, true_and, exists_eq_left] at hcom
  obtain ⟨t1, t2, t3, t4, t5, t6⟩ := hcom
  rcases C40_same_poly_sound_partial T hchar (k + r) x inputs proof.aggregation ts2 ts' cx h3 hcx hpt with ⟨-, hA | hA⟩
  swap
  · exact Or.inr (Or.inr (Or.inr (Or.inr hA)))
  by_cases hin : ∃ cl ∈ inputs, cl.eval ≠ mle x cl.point
  · exact Or.inr (Or.inr (Or.inr (Or.inl ⟨hin, hA⟩)))
  push Not at hin
  simp only [inputs, List.mem_cons, List.not_mem_nil, or_false, forall_eq_or_imp, forall_eq] at hin
  obtain ⟨i1, i2, i3⟩ := hin
  rw [i1, i2, i3, t1, t2, t3] at h2
  rcases (accepted_sound T 2 k hchar (fun pt => mle x (pt ++ cq.point.drop c) * mle wq (cq.point.take c ++ pt) + c1 * (mle x (pt ++ ck.point.drop c) * mle wk (ck.point.take c ++ pt))
        + c2 * (mle x (pt ++ cv.point.drop c) * mle wv (cv.point.take c ++ pt))) _ proof.sumcheck ts1 ts2 sub h1 h2.symm).2 with hs | hs
  swap
  · exact Or.inr (Or.inr (Or.inl hs))
  by_cases hd : dq = 0 ∧ dk = 0 ∧ dv = 0
  · exact Or.inl hd
  refine Or.inr (Or.inl ⟨hd, ?_⟩)
  have id : ∀ (w b p : List F), p.length = r + c → mle (matmulOut r k c false x w b) p
      = (cubeSum k fun pt => mle x (pt ++ p.drop c) * mle w (p.take c ++ pt)) + mle b (p.take c) := by
    intro w b p hp
    have := matmul_identity r k c false x w b (p.take c) (p.drop c) (by simp; omega) (by simp; omega)
    rw [List.take_append_drop] at this
    rw [this]; simp
  have hsplit : (cubeSum k fun pt => mle x (pt ++ cq.point.drop c) * mle wq (cq.point.take c ++ pt) + c1 * (mle x (pt ++ ck.point.drop c) * mle wk (ck.point.take c ++ pt))
        + c2 * (mle x (pt ++ cv.point.drop c) * mle wv (cv.point.take c ++ pt)))
      = (cubeSum k fun pt => mle x (pt ++ cq.point.drop c) * mle wq (cq.point.take c ++ pt)) + c1 * (cubeSum k fun pt => mle x (pt ++ ck.point.drop c) * mle wk (ck.point.take c ++ pt))
        + c2 * (cubeSum k fun pt => mle x (pt ++ cv.point.drop c) * mle wv (cv.point.take c ++ pt)) := by
    unfold cubeSum
    rw [Finset.mul_sum, Finset.mul_sum, ← Finset.sum_add_distrib, ← Finset.sum_add_distrib]
  rw [hsplit] at hs
  simp only [dq, dk, dv, id _ _ _ l1, id _ _ _ l2, id _ _ _ l3]
  rw [← t4, ← t5, ← t6]
  linear_combination hs

/-- C77 fails without the hypothesis on the point. The input is the column `(0, 1)`, the weights are `1` and the biases `0`, so the three outputs are `(0, 1)`. Against every transcript the three false claims
that the first entry of the outputs is `-4` are accepted, and all claims handed on are true, whenever the challenge of the aggregation's sum-check is none of 0, 1, 2. -/
theorem C77_prover_point_false (T : Transcript F) (hchar : ∀ k : ℕ, 0 < k → k ≤ 2 → (k : F) ≠ 0) (ts : T.State) :
    ∃ (sumcheck : IOPProof F) (challenge : F), (∀ k : ℕ, k ≤ 2 → challenge ≠ (k : F)) →
      ∃ (proof : QkvProof F) (ts' : T.State), proof.aggregation.sumcheck = sumcheck ∧
        verifyQkv T 1 0 0 ⟨[0], -4⟩ ⟨[0], -4⟩ ⟨[0], -4⟩ proof ts
          = some ([("WeightQ", ⟨[], 1⟩), ("WeightK", ⟨[], 1⟩), ("WeightV", ⟨[], 1⟩), ("BiasQ", ⟨[], 0⟩), ("BiasK", ⟨[], 0⟩), ("BiasV", ⟨[], 0⟩)], ⟨[2], 2⟩, ts') ∧
        (1 : F) = mle [1] [] ∧ (0 : F) = mle [0] [] ∧ (2 : F) = mle [0, 1] [2] ∧ (-4 : F) ≠ mle (matmulOut 1 0 0 false [0, 1] [1] [0]) [0] := by
  have h2 : (2 : F) ≠ 0 := by have := hchar 2 (by omega) le_rfl; exact_mod_cast this
  obtain ⟨c1, c2, ts1, hch⟩ : ∃ c1 c2 ts1, qkvChallenges T [(⟨[0], -4⟩ : Claim F), ⟨[0], -4⟩, ⟨[0], -4⟩] [-4, -4, -4] ts = (c1, c2, ts1) := ⟨_, _, _, rfl⟩
  obtain ⟨as, ts2, hs⟩ : ∃ as ts2, T.sampleN 3 ts1 = (as, ts2) := ⟨_, _, rfl⟩
  have hasl : as.length = 3 := by
    have := sampleN_length T 3 ts1
    rwa [hs] at this
  obtain ⟨a0, a1, a2, rfl⟩ := List.length_eq_three.mp hasl
  obtain ⟨sc, ts', hl, hv⟩ := any_sum T 1 hchar (-4 * (a0 + a1 + a2)) ts2
  obtain ⟨c, hc⟩ := List.length_eq_one_iff.mp hl
  refine ⟨⟨[2], sc.proofs⟩, c, fun hcc => ⟨⟨⟨[], []⟩, ⟨⟨[2], sc.proofs⟩, [-(a0 + a1 + a2), 2]⟩, [-4, -4, -4], (-4, 1), (-4, 1), (-4, 1)⟩, ts', rfl, ?_, ?_, ?_, ?_, ?_⟩⟩
  · have hv' := hv (by rw [hc]; simpa using hcc)
    have hv'' : verify T (-4 * (a0 + a1 + a2)) ⟨[2], sc.proofs⟩ 2 1 ts2 = some (⟨sc.point, -4 * (a0 + a1 + a2) / 2 ^ 1⟩, ts') := by
      rw [← hv']; rfl
    have hagg : verifySamePoly T (0 + 1) [⟨[0], -4⟩, ⟨[0], -4⟩, ⟨[0], -4⟩] ⟨⟨[2], sc.proofs⟩, [-(a0 + a1 + a2), 2]⟩ ts1 = some (⟨[2], 2⟩, ts') := by
      have e0 : -4 * a0 + (-4 * a1 + -4 * a2) = -4 * (a0 + a1 + a2) := by ring
      have e1 : -(a0 + a1 + a2) * 2 = -4 * (a0 + a1 + a2) / 2 ^ 1 := by field_simp; ring
      have e2 : 0 + a0 * (1 - 2) + a1 * (1 - 2) + a2 * (1 - 2) = -(a0 + a1 + a2) := by ring
      have e3 : identityEval [(0 : F)] [2] = 1 - 2 := by simp [identityEval]
      unfold verifySamePoly
      simp only [List.length_cons, List.length_nil, List.all_cons, List.all_nil, hs, aggregatedRlc, List.map_cons, List.map_nil, List.zip_cons_cons, List.zip_nil_left, List.sum_cons, List.sum_nil, add_zero,
        zero_add, decide_true, Bool.and_self, if_true, Option.bind_eq_bind, Option.bind_some, e0, hv'', List.foldl_cons, List.foldl_nil, e3, List.getElem?_cons_zero, List.getElem?_cons_succ]
      simp only [zero_add] at e2
      rw [if_pos e2, if_pos e1]
    unfold verifyQkv
    simp only [List.zip_cons_cons, List.zip_nil_left, List.mapM_cons, List.mapM_nil, qkvSplit, qkvClaims, List.length_cons, List.length_nil, zero_add, add_zero, if_true, Option.bind_eq_bind, Option.bind_some,
      Option.pure_def, hch, verify, List.foldl_cons, List.foldl_nil, List.take_zero, List.drop_zero, List.nil_append, mul_one, sub_self]
    rw [zero_add] at hagg
    rw [hagg]
    rfl
  · simp [mle, chi]
  · simp [mle, chi]
  · simp [mle, Finset.sum_range_succ, chi]
  · simp [matmulOut, mle, Finset.sum_range_succ, chi]
    have : (4 : F) = 2 * 2 := by norm_num
    rw [this]
    exact mul_ne_zero h2 h2

/-- Instances. Inference: `(1 2)·((3 4)(5 6)) + (7 8) = (20 24)`. -/
example : (qkvEvaluate (α := ℤ) ⟨[1, 2], [1, 2]⟩ ⟨[2, 2], [3, 4, 5, 6]⟩ ⟨[2], [7, 8]⟩ ⟨[2, 2], [1, 0, 0, 1]⟩ ⟨[2], [0, 0]⟩ ⟨[2, 2], [0, 1, 1, 0]⟩ ⟨[2], [1, 1]⟩)
    = some (⟨[1, 2], [20, 24]⟩, ⟨[1, 2], [1, 2]⟩, ⟨[1, 2], [3, 2]⟩) := by decide +kernel

/-- Padding of a bias with three heads of dimension one: the padded shape has 16 columns, the announced one 4. -/
example : padQkvBias (α := ℤ) 3 1 ⟨[3], [5, 6, 7]⟩ = some ⟨[16], [5, 0, 0, 0, 6, 0, 0, 0, 7, 0, 0, 0, 0, 0, 0, 0]⟩ ∧ qkvPaddedOutputShape 5 3 1 = [8, 4] := by decide +kernel

/-- An honest proof, of the matrices `X = (1 2; 3 4)` and `W = (1 0; 0 1), (0 1; 1 0), (2 0; 0 2)` with biases `(1 1), (0 0), (5 6)`, is accepted. -/
example :
    let x : List ℚ := [1, 2, 3, 4]
    let cq : Claim ℚ := ⟨[5, 6], mle (matmulOut 1 1 1 false x [1, 0, 0, 1] [1, 1]) [5, 6]⟩
    let ck : Claim ℚ := ⟨[7, 8], mle (matmulOut 1 1 1 false x [0, 1, 1, 0] [0, 0]) [7, 8]⟩
    let cv : Claim ℚ := ⟨[9, 3], mle (matmulOut 1 1 1 false x [2, 0, 0, 2] [5, 6]) [9, 3]⟩
    ((proveQkv 2 (tape ℚ) 1 1 1 x [1, 0, 0, 1] [0, 1, 1, 0] [2, 0, 0, 2] [1, 1] [0, 0] [5, 6] cq ck cv [10, 11, 12, 13, 14, 15, 16, 17]).bind fun o =>
      (verifyQkv (tape ℚ) 1 1 1 cq ck cv o.1 [10, 11, 12, 13, 14, 15, 16, 17]).map fun v => (v.1 == o.2.1, v.2.1 == o.2.2.1, v.2.1)) = some (true, true, ⟨[16, 17], 51⟩) := by
  decide +kernel

end Props
