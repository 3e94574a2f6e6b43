import Verif.Props.SoftmaxProof
import Verif.Props.LogUpProver

/-!
C80: the honest prover of a softmax with its lookup proofs.
-/

namespace Props
open Model Spec Lemmas

variable {F : Type} [Field F] [DecidableEq F] {C : Type}

/-- No challenge of the sumchecks of a lookup proof is at most three. -/
def lookupRoundsGood (l : LogUpProof F) : Prop := ∀ sp ∈ l.sumcheckProofs, ∀ y ∈ sp.point, ∀ j : ℕ, j ≤ 3 → y ≠ (j : F)

/-- One lookup, proved and verified. -/
theorem proveLogups_step (T : Transcript F) (threads : ℕ) (ht : 0 < threads) (hchar : ∀ k : ℕ, 0 < k → k ≤ 3 → (k : F) ≠ 0) (ts : T.State) (ch : F × F) (n w : ℕ) (hn : 2 ≤ n) (columns : List (List F))
    (groups : List (List (List F))) (hgr : groups.flatten = columns) (hinst : 0 < groups.length) (hw : 0 < w) (hg : ∀ g ∈ groups, g.length = w) (hcols : ∀ t ∈ columns, t.length = 2 ^ n) :
    ∃ (proof : LogUpProof F) (ts' : T.State) (q : List F), q.length = n ∧ proof.outputClaims = columns.map (trueClaim q) ∧
      (∀ (rest : List ((List (List F) × ℕ) × (F × F))) (r : List (LogUpProof F) × T.State), proveLogups threads T rest ts' = some r → proveLogups threads T (((columns, w), ch) :: rest) ts = some (proof :: r.1, r.2)) ∧
      ((∀ rest : List ((List (List F) × ℕ) × (F × F)), proveLogups threads T rest ts' = none → proveLogups threads T (((columns, w), ch) :: rest) ts = none)) ∧
      (lookupRoundsGood proof → ∀ (rest : List (LogUpProof F × (F × F) × ℕ)) (r : List (List (Claim F)) × T.State), verifyLogups T rest ts' = some r →
        verifyLogups T ((proof, ch, groups.length) :: rest) ts = some (columns.map (trueClaim q) :: r.1, r.2)) := by
  obtain ⟨R, rfl⟩ : ∃ R, n = R + 2 := ⟨n - 2, by omega⟩
  subst hgr
  obtain ⟨c, csc⟩ := ch
  obtain ⟨input, proof, ts', q, h1, h2, -, h4, -, h6, h7⟩ := C92_lookup T threads ht hchar ts c csc R w groups hinst hw hg hcols
  refine ⟨proof, ts', q, h4, h6, ?_, ?_, ?_⟩
  · intro rest r hr
    simp only [proveLogups, h1, h2, hr, Option.bind_eq_bind, Option.bind_some]
  · intro rest hr
    simp only [proveLogups, h1, h2, hr, Option.bind_eq_bind, Option.bind_some, Option.bind_none]
  · intro hgood rest r hr
    obtain ⟨frac, g1, -⟩ := h7 hgood
    simp only [verifyLogups, g1, hr, Option.bind_eq_bind, Option.bind_some]

theorem zeroGroups (zs : List (List F × List F)) : (zs.map fun z => [z.1, z.2]).flatten = zs.flatMap fun z => [z.1, z.2] := (List.flatMap_def ..).symm

/-- The lookups of a softmax, proved and verified. -/
theorem softmax_lookups (T : Transcript F) (threads : ℕ) (ht : 0 < threads) (hchar : ∀ k : ℕ, 0 < k → k ≤ 3 → (k : F) ≠ 0) (ein eout lo hi out : List F) (zs : List (List F × List F)) (n k : ℕ) (hk : k + 2 ≤ n)
    (h1 : ein.length = 2 ^ n) (h2 : eout.length = 2 ^ n) (h3 : lo.length = 2 ^ n) (h4 : hi.length = 2 ^ n) (h5 : out.length = 2 ^ n) (hzl : ∀ z ∈ zs, z.1.length = 2 ^ n ∧ z.2.length = 2 ^ n)
    (chals : List (F × F)) (hch : (if zs = [] then 3 else 4) ≤ chals.length) (ts : T.State) :
    ∃ (logups : List (LogUpProof F)) (ts' : T.State) (ep rp ap zp : List F), proveLogups threads T ((softmaxLookups ein eout lo hi zs out (2 ^ k)).zip chals) ts = some (logups, ts') ∧
      ¬ chals.length < (softmaxLookups ein eout lo hi zs out (2 ^ k)).length ∧
      ep.length = n ∧ rp.length = n ∧ ap.length = n - k ∧ (zs ≠ [] → zp.length = n) ∧
      (logups[0]?.bind fun l => l.outputClaims[0]?) = some ⟨ep, mle ein ep⟩ ∧ (logups[1]?.bind fun l => l.outputClaims[0]?) = some ⟨rp, mle lo rp⟩ ∧
      (logups[2]?.bind fun l => l.outputClaims[0]?) = some ⟨ap, mle (blockSums (n - k) k out) ap⟩ ∧
      softmaxZeroPoint zs.isEmpty logups = some zp ∧
      ((∀ l ∈ logups, lookupRoundsGood l) → verifyLogups T (logups.zip (chals.zip (softmaxInstances zs.length))) ts
        = some ([[⟨ep, mle ein ep⟩, ⟨ep, mle eout ep⟩], [⟨rp, mle lo rp⟩, ⟨rp, mle hi rp⟩], [⟨ap, mle (blockSums (n - k) k out) ap⟩]]
          ++ (if zs.isEmpty then [] else [zs.flatMap fun z => [⟨zp, mle z.1 zp⟩, ⟨zp, mle z.2 zp⟩]]), ts')) := by
  have hsum : (chunks (2 ^ k) out).map List.sum = blockSums (n - k) k out := chunks_blockSums (n - k) k out (by rw [h5]; congr 1; omega)
  have hsl : (blockSums (n - k) k out).length = 2 ^ (n - k) := by simp [blockSums]
  obtain ⟨c0, c1, c2, cs, rfl⟩ : ∃ c0 c1 c2 cs, chals = c0 :: c1 :: c2 :: cs := by
    have : 3 ≤ chals.length := le_trans (by split <;> omega) hch
    match chals, this with
    | c0 :: c1 :: c2 :: cs, _ => exact ⟨c0, c1, c2, cs, rfl⟩
    | [], h => simp at h
    | [_], h => simp at h
    | [_, _], h => simp at h
  obtain ⟨p0, t0, ep, a1, a2, a3, -, a5⟩ := proveLogups_step T threads ht hchar ts c0 n 2 (by omega) [ein, eout] [[ein, eout]] rfl (by simp) (by omega) (by simp) (by simp [h1, h2])
  obtain ⟨p1, t1, rp, b1, b2, b3, -, b5⟩ := proveLogups_step T threads ht hchar t0 c1 n 1 (by omega) [lo, hi] [[lo], [hi]] rfl (by simp) (by omega) (by simp) (by simp [h3, h4])
  obtain ⟨p2, t2, ap, d1, d2, d3, -, d5⟩ := proveLogups_step T threads ht hchar t1 c2 (n - k) 1 (by omega) [blockSums (n - k) k out] [[blockSums (n - k) k out]] rfl (by simp) (by omega) (by simp)
    (by simp [hsl])
  cases zs with
  | nil =>
    refine ⟨[p0, p1, p2], t2, ep, rp, ap, [], ?_, by simp [softmaxLookups], a1, b1, d1, fun h => absurd rfl h, ?_, ?_, ?_, rfl, ?_⟩
    · have hz : (softmaxLookups ein eout lo hi [] out (2 ^ k)).zip (c0 :: c1 :: c2 :: cs) = [(([ein, eout], 2), c0), (([lo, hi], 1), c1), (([blockSums (n - k) k out], 1), c2)] := by
        simp [softmaxLookups, hsum]
      rw [hz]
      exact a3 _ _ (b3 _ _ (d3 _ _ (show proveLogups threads T [] t2 = some ([], t2) from rfl)))
    · simp [a2, trueClaim]
    · simp [b2, trueClaim]
    · simp [d2, trueClaim]
    · intro hg
      have hz : [p0, p1, p2].zip ((c0 :: c1 :: c2 :: cs).zip (softmaxInstances ([] : List (List F × List F)).length)) = [(p0, c0, 1), (p1, c1, 2), (p2, c2, 1)] := by
        simp [softmaxInstances]
      rw [hz]
      exact a5 (hg _ (by simp)) _ _ (b5 (hg _ (by simp)) _ _ (d5 (hg _ (by simp)) _ _ (show verifyLogups T [] t2 = some ([], t2) from rfl)))
  | cons z zs =>
    obtain ⟨c3, cs', rfl⟩ : ∃ c3 cs', cs = c3 :: cs' := by
      cases cs with
      | nil => simp at hch
      | cons c l => exact ⟨c, l, rfl⟩
    obtain ⟨p3, t3, zp, e1, e2, e3, -, e5⟩ := proveLogups_step T threads ht hchar t2 c3 n 2 (by omega) ((z :: zs).flatMap fun z => [z.1, z.2]) ((z :: zs).map fun z => [z.1, z.2]) (zeroGroups _) (by simp)
      (by omega) (by intro g hg; obtain ⟨y, -, rfl⟩ := List.mem_map.1 hg; rfl) (by
        intro t ht'
        obtain ⟨y, hy, ht'⟩ := List.mem_flatMap.1 ht'
        simp only [List.mem_cons, List.not_mem_nil, or_false] at ht'
        rcases ht' with rfl | rfl
        · exact (hzl y hy).1
        · exact (hzl y hy).2)
    refine ⟨[p0, p1, p2, p3], t3, ep, rp, ap, zp, ?_, by simp [softmaxLookups], a1, b1, d1, fun _ => e1, ?_, ?_, ?_, ?_, ?_⟩
    · have hz : (softmaxLookups ein eout lo hi (z :: zs) out (2 ^ k)).zip (c0 :: c1 :: c2 :: c3 :: cs')
          = [(([ein, eout], 2), c0), (([lo, hi], 1), c1), (([blockSums (n - k) k out], 1), c2), (((z :: zs).flatMap fun z => [z.1, z.2], 2), c3)] := by
        simp [softmaxLookups, hsum]
      rw [hz]
      exact a3 _ _ (b3 _ _ (d3 _ _ (e3 _ _ (show proveLogups threads T [] t3 = some ([], t3) from rfl))))
    · simp [a2, trueClaim]
    · simp [b2, trueClaim]
    · simp [d2, trueClaim]
    · simp [softmaxZeroPoint, e2, trueClaim]
    · intro hg
      have hz : [p0, p1, p2, p3].zip ((c0 :: c1 :: c2 :: c3 :: cs').zip (softmaxInstances (z :: zs).length)) = [(p0, c0, 1), (p1, c1, 2), (p2, c2, 1), (p3, c3, ((z :: zs).map fun z => [z.1, z.2]).length)] := by
        simp [softmaxInstances]
      have hm : ((z :: zs).flatMap fun z => [z.1, z.2]).map (trueClaim zp) = (z :: zs).flatMap fun z => [⟨zp, mle z.1 zp⟩, ⟨zp, mle z.2 zp⟩] := by
        rw [List.map_flatMap]; rfl
      rw [hz, ← hm]
      exact a5 (hg _ (by simp)) _ _ (b5 (hg _ (by simp)) _ _ (d5 (hg _ (by simp)) _ _ (e5 (hg _ (by simp)) _ _ (show verifyLogups T [] t3 = some ([], t3) from rfl))))

/-- C80, the honest prover, part. Let the scores `X` be heads of `2^k` by `2^k` scores, `k + a` the logarithm of the number of all rows, which must be at least two, and let there be at most three zero chunks. If the digits
recombine to minus the masked scores, with one shift for every row, and the output is the product of the looked up exponential and the looked up indicators, then the prover makes a proof, lookup proofs included, and passes on
`scalar` times the true claim on the scores. The verifier accepts it, returns the true claim on `X` and hands on true claims about the committed columns, unless a challenge of a sumcheck is small or the
verifier divides by zero. Missing: more chunks and fewer rows, for which it is false, see `C80_many_chunks_false` and `C80_few_rows_false`. -/
theorem C80_complete_partial (T : Transcript F) (threads : ℕ) (ht : 0 < threads) (p : ℕ) [CharP F p] (zs : List (List F × List F)) (hK : zs.length ≤ 3)
    (hchar : ∀ k : ℕ, 0 < k → k ≤ zs.length + 3 → (k : F) ≠ 0) (scalar bkm : ℤ) (hs : scalar.natAbs ≤ p) (hb : (-(bkm / 2 ^ 16 + 1) * 2 ^ 16).natAbs ≤ p)
    (zv tv k a n : ℕ) (htv : zs ≠ [] → (bkm / 2 ^ 16).toNat ≤ 2 ^ tv ∧ 2 ^ tv < 2 * (bkm / 2 ^ 16).toNat) (hn : n = k + k + a) (hrows : 2 ≤ k + a)
    (ein eout lo hi shift X : List F) (h1 : ein.length = 2 ^ n) (h2 : eout.length = 2 ^ n) (h3 : lo.length = 2 ^ n) (h4 : hi.length = 2 ^ n)
    (hzl : ∀ z ∈ zs, z.1.length = 2 ^ n ∧ z.2.length = 2 ^ n) (h5 : shift.length = 2 ^ (n - k)) (ninf : F) (hninf : ninf = ((-(bkm / 2 ^ 16 + 1) * 2 ^ 16 : ℤ) : F))
    (hrel : ∀ w < 2 ^ n, lo.getD w 0 + 2 ^ 8 * hi.getD w 0 + 2 ^ 16 * ein.getD w 0 + 2 ^ (16 + tv) * powerSum (2 ^ zv) (zs.map fun z => z.1.getD w 0)
      = -(if w % 2 ^ k ≤ w / 2 ^ k % 2 ^ k then (scalar : F) * X.getD w 0 + shift.getD (w / 2 ^ k) 0 else ninf))
    (out : List F) (hol : out.length = 2 ^ n) (hout : ∀ w < 2 ^ n, out.getD w 0 = eout.getD w 0 * (zs.map fun z => z.2.getD w 0).prod)
    (lp : List F) (hlp : lp.length = n) (pre : List ℕ) (cs : List C) (hcs : cs.length = 5 + 2 * zs.length) (chals : List (F × F)) (hch : (if zs = [] then 3 else 4) ≤ chals.length) (ts : T.State) :
    let shifted := (List.range (2 ^ n)).map fun w => (scalar : F) * X.getD w 0 + shift.getD (w / 2 ^ k) 0
    let tril := (List.range (2 ^ n)).map fun w => if w % 2 ^ k ≤ w / 2 ^ k % 2 ^ k then (1 : F) else 0
    let bias := (List.range (2 ^ n)).map fun w => if w % 2 ^ k ≤ w / 2 ^ k % 2 ^ k then 0 else ninf
    let last : Claim F := ⟨lp, mle out lp⟩
    ∃ proof pt ts', proveSoftmaxStep threads T n ein eout lo hi zs out (2 ^ k) shift shifted tril bias (n - k) cs chals last ts = some (proof, ⟨pt, scalar * mle X pt⟩, ts') ∧
      pt.length = n ∧ proof.mask.point = pt ∧ proof.commitments = cs ∧
      ((∀ l ∈ proof.logupProofs, ∀ sp ∈ l.sumcheckProofs, ∀ y ∈ sp.point, ∀ j : ℕ, j ≤ 3 → y ≠ (j : F)) → (∀ r ∈ proof.accumulation.point ++ pt, ∀ j : ℕ, j ≤ zs.length + 3 → r ≠ (j : F)) →
        eqPoly pt proof.accumulation.point ≠ 0 → mle tril pt ≠ 0 → (scalar : F) ≠ 0 →
        verifySoftmax T p ⟨scalar, bkm, zs.length, zv⟩ (pre ++ [2 ^ k, 2 ^ k]) chals last proof ts
          = some (⟨pt, mle X pt⟩, (let sp := proof.accumulation.point
            cs.zip ([⟨sp, mle ein sp⟩, ⟨sp, mle eout sp⟩, ⟨sp, mle lo sp⟩, ⟨sp, mle hi sp⟩, ⟨pt.drop k, mle shift (pt.drop k)⟩] ++ zs.flatMap fun z => [⟨sp, mle z.1 sp⟩, ⟨sp, mle z.2 sp⟩])), ts')) := by
  intro shifted tril bias last
  have hout' : out = softmaxOut n eout zs := by
    apply list_ext_getD 0
    · simp [softmaxOut, hol]
    · intro w hw
      rw [hol] at hw
      rw [softmaxOut, getD_range_map' _ _ _ _ hw, hout w hw]
  obtain ⟨logups, ts1, ep, rp, ap, zp, g1, g2, g3, g4, g5, g6, g7, g8, g9, g10, g11⟩ := softmax_lookups T threads ht (fun k h1 h2 => hchar k h1 (by omega)) ein eout lo hi out zs n k (by omega) h1 h2 h3 h4 hol hzl
    chals hch ts
  have htv' : zs ≠ [] → ceilLog2 (bkm / 2 ^ 16).toNat = some tv := by
    intro hne
    obtain ⟨u1, u2⟩ := htv hne
    obtain ⟨tv', hv⟩ := ceilLog2_some (x := (bkm / 2 ^ 16).toNat) (by have := Nat.two_pow_pos tv; omega)
    obtain ⟨u3, u4⟩ := ceilLog2_spec hv
    rcases lt_trichotomy tv tv' with hlt | heq | hlt
    · have := Nat.pow_le_pow_right (n := 2) (by omega) (Nat.succ_le_of_lt hlt); rw [Nat.succ_eq_add_one, pow_succ] at this; omega
    · rw [hv, heq]
    · have := Nat.pow_le_pow_right (n := 2) (by omega) (Nat.succ_le_of_lt hlt); rw [Nat.succ_eq_add_one, pow_succ] at this; omega
  obtain ⟨acc, mask, evals, pt, ts', k1, k2, k3, k4⟩ := C80_after_lookups_partial (C := C) T threads ht p zs hK hchar scalar bkm hs hb zv tv k a k n htv' hn (by omega) ein eout lo hi shift X h1 h2 h3 h4 hzl h5 ninf hninf
    (by intro w hw; rw [recombined, getD_range_map' _ _ _ _ hw]; exact hrel w hw) ep rp ap zp lp g3 g4 g5 g6 hlp ts1
  rw [← hout'] at k1 k4
  refine ⟨⟨logups, cs, acc, mask, evals⟩, pt, ts', ?_, k3, k2, rfl, ?_⟩
  · unfold proveSoftmaxStep
    dsimp only
    rw [if_neg g2, g1]
    simp only [Option.bind_eq_bind, Option.bind_some]
    rw [g7, g8, g9, g10]
    simp only [Option.bind_some]
    have k1' : proveSoftmax threads T n ein eout lo hi zs shift shifted tril bias (n - k) ep rp ap zp last ts1 = some (acc, mask, evals, ⟨pt, scalar * mle X pt⟩, ts') := k1
    rw [k1']
    rfl
  · intro hg hr h0 h0' hs0
    exact k4 pre logups cs chals ts hcs (g11 hg) hr h0 h0' hs0

theorem mem_mapM_none {α β : Type} (f : α → Option β) (l : List α) (x : α) (hx : x ∈ l) (h : f x = none) : l.mapM f = none := mapM_none_of_mem f l x hx h

/-- The sumcheck prover fails on a product of more than five tables. -/
theorem proveTerms_long (T : Transcript F) (threads : ℕ) (heap : ℕ → Mle F) (n : ℕ) (hn : 0 < n) (terms : List (F × List ℕ)) (t : F × List ℕ) (ht : t ∈ terms) (hlen : 5 < t.2.length) (ts : T.State) :
    proveTerms threads T heap n terms ts = none := by
  unfold proveTerms
  cases hvp : buildVP heap n terms with
  | none => rfl
  | some vp =>
    obtain ⟨hb, hnv⟩ := buildVP_built heap n terms vp hvp
    have hi := built_inv heap vp _ hb
    obtain ⟨q, hq, hql⟩ : ∃ q ∈ vp.products, 5 < q.2.length := by
      have hm : (t.1, t.2.map fun a => ((heap a).numVars, (heap a).evals)) ∈ vp.products.map fun p => (p.1, prodTables heap vp.flattened p.2) := by
        rw [hi.terms]
        exact List.mem_map.2 ⟨t, ht, rfl⟩
      obtain ⟨q, hq, he⟩ := List.mem_map.1 hm
      refine ⟨q, hq, ?_⟩
      have := congrArg (fun x => x.2.length) he
      simp [prodTables] at this
      omega
    have hmsg : ∀ (ex : Exec) (st : ProverState F), st.products = vp.products → st.products.mapM (productMessage ex st) = none := by
      intro ex st hst
      apply mem_mapM_none _ _ q (by rw [hst]; exact hq)
      unfold productMessage
      cases q.2.mapM fun i => st.mles[i]? with
      | none => rfl
      | some fs =>
        simp only [Option.bind_eq_bind, Option.bind_some]
        rw [if_neg (by
          rintro ⟨h, -⟩
          simp only [List.mem_cons, List.not_mem_nil, or_false] at h
          omega)]
    have hnone : prove threads (.parallel threads) T vp.maxDegree vp.maxNumVars vp.products (vp.flattened.map heap) ts = none := by
      unfold prove
      rw [if_neg (by omega)]
      unfold proverInit
      rw [if_neg (by omega)]
      cases extrapolationAux (F := F) threads vp.maxDegree with
      | none => rfl
      | some aux =>
        simp only [Option.bind_eq_bind, Option.bind_some]
        obtain ⟨m, hm⟩ : ∃ m, vp.maxNumVars = m + 1 := ⟨vp.maxNumVars - 1, by omega⟩
        rw [hm]
        unfold proveLoop proveRound bindChallenge
        simp only [Option.bind_eq_bind]
        simp only [if_true]
        rw [if_pos (by omega), Option.bind_some, hmsg _ _ rfl]
        rfl
    simp only [Option.bind_eq_bind, Option.bind_some, hnone, Option.bind_none]

/-- C80 is false for more than three zero chunks: the prover multiplies the indicators of all chunks, the exponential and a beta polynomial in one sumcheck, which is not implemented for more than five factors. Whatever
the columns and challenges are, it makes no proof. -/
theorem C80_many_chunks_false (T : Transcript F) (threads : ℕ) (zs : List (List F × List F)) (hK : 4 ≤ zs.length) (n : ℕ) (hn : 0 < n) (ein eout lo hi out shift shifted tril bias : List F) (rowLen sv : ℕ)
    (cs : List C) (chals : List (F × F)) (last : Claim F) (ts : T.State) :
    proveSoftmaxStep threads T n ein eout lo hi zs out rowLen shift shifted tril bias sv cs chals last ts = none := by
  have hnone : ∀ (ep rp ap zp : List F) (ts : T.State), proveSoftmax threads T n ein eout lo hi zs shift shifted tril bias sv ep rp ap zp last ts = none := by
    intro ep rp ap zp ts
    unfold proveSoftmax
    cases checkedSub ep.length ap.length with
    | none => rfl
    | some extra =>
      simp only [Option.bind_eq_bind, Option.bind_some]
      rw [proveTerms_long T threads _ n hn _ ((T.labelled ts "batching_challenge").1 ^ (4 + 2 * zs.length) * (T.labelled ts "batching_challenge").1,
        (List.range zs.length).map (fun j => 7 + 2 * zs.length + j) ++ [7 + 3 * zs.length, 9 + 3 * zs.length])
        (by unfold softmaxTerms; rw [if_neg (by omega)]; simp) (by simp; omega)]
      rfl
  unfold proveSoftmaxStep
  dsimp only
  split
  · rfl
  · simp only [Option.bind_eq_bind, hnone, Option.bind_none]
    simp

theorem proveLogups_none (threads : ℕ) (T : Transcript F) (x : (List (List F) × ℕ) × (F × F)) (rest : List ((List (List F) × ℕ) × (F × F))) (h : ∀ ts, proveLogups threads T rest ts = none) (ts : T.State) :
    proveLogups threads T (x :: rest) ts = none := by
  obtain ⟨⟨columns, w⟩, c, csc⟩ := x
  rw [proveLogups]
  simp only [h, Option.bind_eq_bind, Option.bind_none]
  cases LogUpInput.newLookup columns c csc w with
  | none => rfl
  | some input =>
    simp only [Option.bind_some]
    cases batchProve threads T input ts <;> rfl

/-- C80 is false for fewer than four rows in all heads together: the prover fails, whatever the columns and challenges are, although the sums of the rows are what they should be. -/
theorem C80_few_rows_false (T : Transcript F) (threads : ℕ) (zs : List (List F × List F)) (k m : ℕ) (hm : m ≤ 1) (ein eout lo hi out shift shifted tril bias : List F) (hol : out.length = 2 ^ (m + k)) (n sv : ℕ)
    (cs : List C) (chals : List (F × F)) (last : Claim F) (ts : T.State) :
    proveSoftmaxStep threads T n ein eout lo hi zs out (2 ^ k) shift shifted tril bias sv cs chals last ts = none := by
  unfold proveSoftmaxStep
  dsimp only
  split
  · rfl
  · rename_i hlen
    obtain ⟨c0, c1, c2, cs', rfl⟩ : ∃ c0 c1 c2 cs', chals = c0 :: c1 :: c2 :: cs' := by
      have : 3 ≤ chals.length := by
        simp only [softmaxLookups, List.length_append, List.length_cons, List.length_nil] at hlen
        omega
      match chals, this with
      | c0 :: c1 :: c2 :: cs, _ => exact ⟨c0, c1, c2, cs, rfl⟩
      | [], h => simp at h
      | [_], h => simp at h
      | [_, _], h => simp at h
    have hsum : (chunks (2 ^ k) out).map List.sum = blockSums m k out := chunks_blockSums m k out hol
    have hsl : (blockSums m k out).length = 2 ^ m := by simp [blockSums]
    have hnone : ∀ (rest : List ((List (List F) × ℕ) × (F × F))) (ts : T.State), proveLogups threads T ((([blockSums m k out], 1), c2) :: rest) ts = none := by
      intro rest ts
      obtain ⟨input, h1, h2⟩ := C92_short_lookup_false T threads ts c2.1 c2.2 m 1 hm [[blockSums m k out]] (by simp) (by omega) (by simp) (by simp [hsl])
      have h1' : LogUpInput.newLookup [blockSums m k out] c2.1 c2.2 1 = some input := h1
      obtain ⟨a, b⟩ := c2
      simp only [proveLogups, h1', h2, Option.bind_eq_bind, Option.bind_some, Option.bind_none]
    have hall : proveLogups threads T ((softmaxLookups ein eout lo hi zs out (2 ^ k)).zip (c0 :: c1 :: c2 :: cs')) ts = none := by
      unfold softmaxLookups
      rw [hsum]
      simp only [List.cons_append, List.nil_append, List.zip_cons_cons]
      exact proveLogups_none threads T _ _ (proveLogups_none threads T _ _ (hnone _)) ts
    rw [hall]
    rfl

/-- The hypotheses of `C80_complete_partial` on the columns of `exSoftmaxZero`. -/
example : (∀ w < 2 ^ 3, ([51, 0, 0, 27, 20, 0, 37, 120] : List (ZMod 524287)).getD w 0 + 2 ^ 8 * ([0, 0, 0, 0, 99, 0, 0, 70] : List (ZMod 524287)).getD w 0 + 2 ^ 16 * ([0, 1, 0, 0, 1, 1, 0, 0] : List (ZMod 524287)).getD w 0
      + 2 ^ (16 + 1) * powerSum (2 ^ 2) ([([0, 1, 0, 0, 0, 1, 0, 0], [1, 0, 1, 1, 1, 0, 1, 1])].map fun z : List (ZMod 524287) × List (ZMod 524287) => z.1.getD w 0)
        = -(if w % 2 ^ 1 ≤ w / 2 ^ 1 % 2 ^ 1 then ((3 : ℤ) : ZMod 524287) * exScores.getD w 0 + exShift.getD (w / 2 ^ 1) 0 else ((-(2 ^ 17 / 2 ^ 16 + 1) * 2 ^ 16 : ℤ) : ZMod 524287))) ∧
    (∀ w < 2 ^ 3, ([255, 0, 255, 255, 94, 0, 255, 255] : List (ZMod 524287)).getD w 0 = ([255, 94, 255, 255, 94, 94, 255, 255] : List (ZMod 524287)).getD w 0
      * ([([0, 1, 0, 0, 0, 1, 0, 0], [1, 0, 1, 1, 1, 0, 1, 1])].map fun z : List (ZMod 524287) × List (ZMod 524287) => z.2.getD w 0).prod) ∧
    (2 ^ 17 / 2 ^ 16 : ℤ).toNat ≤ 2 ^ 1 ∧ 2 ^ 1 < 2 * (2 ^ 17 / 2 ^ 16 : ℤ).toNat := by
  refine ⟨?_, ?_, ?_, ?_⟩ <;> decide +kernel

/-- Challenges for the examples below. -/
def exStepTape : List (ZMod 524287) := [2, 5, 7, 11, 6, 9, 24, 13, 8, 10, 12, 17, 15, 18, 22, 5, 7, 11, 6, 9, 24, 13, 8, 10, 12, 17, 15, 18, 22, 5, 7, 11, 6, 9, 24, 13, 8, 10, 12, 17, 15, 18, 22, 5, 7, 11, 6, 9, 24, 13]

/-- The proof the prover makes of them: no challenge of its sumchecks is small, it holds four lookup proofs, the claim passed on is thrice that on the scores, and the verifier accepts it with the true claim on the scores. -/
example : ((proveSoftmaxStep 1 (tape (ZMod 524287)) 3 [0, 1, 0, 0, 1, 1, 0, 0] [255, 94, 255, 255, 94, 94, 255, 255] [51, 0, 0, 27, 20, 0, 37, 120] [0, 0, 0, 0, 99, 0, 0, 70] [([0, 1, 0, 0, 0, 1, 0, 0], [1, 0, 1, 1, 1, 0, 1, 1])]
        [255, 0, 255, 255, 94, 0, 255, 255] (2 ^ 1) exShift ((List.range 8).map fun w => 3 * exScores.getD w 0 + exShift.getD (w / 2) 0) ((List.range 8).map fun w => if w % 2 ≤ w / 2 % 2 then 1 else 0)
        ((List.range 8).map fun w => if w % 2 ≤ w / 2 % 2 then 0 else -(3 * 2 ^ 16)) 2 ["in", "out", "lo", "hi", "shift", "chunk", "zero"] [(20, 100), (20, 1), (20, 1), (20, 1000)]
        ⟨[21, 22, 23], mle [255, 0, 255, 255, 94, 0, 255, 255] [21, 22, 23]⟩ exStepTape).bind fun r =>
      (verifySoftmax (tape (ZMod 524287)) 524287 ⟨3, 2 ^ 17, 1, 2⟩ [2, 2, 2] [(20, 100), (20, 1), (20, 1), (20, 1000)] ⟨[21, 22, 23], mle [255, 0, 255, 255, 94, 0, 255, 255] [21, 22, 23]⟩ r.1 exStepTape).map fun v =>
      (r.1.logupProofs.length, r.1.logupProofs.all (fun l => l.sumcheckProofs.all fun sp => sp.point.all fun y => decide (4 < y.val)), (r.1.accumulation.point ++ r.1.mask.point).all (fun y => decide (4 < y.val)),
        decide (r.2.1.eval = 3 * mle exScores r.2.1.point), decide (v.1.eval = mle exScores v.1.point), v.2.1.length))
    = some (4, true, true, true, true, 7) := by
  decide +kernel

/-- With four chunks or with two rows there is no proof of the same columns. -/
example : (proveSoftmaxStep 1 (tape (ZMod 524287)) 3 [0, 1, 0, 0, 1, 1, 0, 0] [255, 94, 255, 255, 94, 94, 255, 255] [51, 0, 0, 27, 20, 0, 37, 120] [0, 0, 0, 0, 99, 0, 0, 70]
        (([0, 1, 0, 0, 0, 1, 0, 0], [1, 0, 1, 1, 1, 0, 1, 1]) :: List.replicate 3 ([0, 0, 0, 0, 0, 0, 0, 0], [1, 1, 1, 1, 1, 1, 1, 1]))
        [255, 0, 255, 255, 94, 0, 255, 255] (2 ^ 1) exShift ((List.range 8).map fun w => 3 * exScores.getD w 0 + exShift.getD (w / 2) 0) ((List.range 8).map fun w => if w % 2 ≤ w / 2 % 2 then 1 else 0)
        ((List.range 8).map fun w => if w % 2 ≤ w / 2 % 2 then 0 else -(3 * 2 ^ 16)) 2 ["in", "out", "lo", "hi", "shift", "chunk", "zero"] [(20, 100), (20, 1), (20, 1), (20, 1000)]
        ⟨[21, 22, 23], mle [255, 0, 255, 255, 94, 0, 255, 255] [21, 22, 23]⟩ exStepTape).isNone ∧
    (proveSoftmaxStep 1 (tape (ZMod 524287)) 2 [0, 1, 0, 0] [255, 94, 255, 255] [51, 0, 0, 27] [0, 0, 0, 0] [] [255, 94, 255, 255] (2 ^ 1) (exShift.take 2) [0, 0, 0, 0] [1, 0, 1, 1] [0, 0, 0, 0] 1 ["in", "out", "lo", "hi", "shift"]
      [(20, 100), (20, 1), (20, 1)] ⟨[21, 22], mle [255, 94, 255, 255] [21, 22]⟩ exStepTape).isNone := by
  refine ⟨?_, ?_⟩ <;> decide +kernel

/-- Without zero chunks: the prover makes a proof of the columns of `exSoftmax` with the same lookup proofs and evaluations. -/
example : (proveSoftmaxStep 1 (tape (ZMod 524287)) 3 exEin exEout exLo exHi [] exEout (2 ^ 1) exShift ((List.range 8).map fun w => 3 * exScores.getD w 0 + exShift.getD (w / 2) 0)
      ((List.range 8).map fun w => if w % 2 ≤ w / 2 % 2 then 1 else 0) ((List.range 8).map fun w => if w % 2 ≤ w / 2 % 2 then 0 else -(2 ^ 18)) 2 ["in", "out", "lo", "hi", "shift"] [(20, 100), (20, 1), (20, 1)]
      ⟨[21, 22, 23], mle exEout [21, 22, 23]⟩ exTape).map (fun r => (r.1.logupProofs.map (·.outputClaims), r.1.evaluations, r.2))
    = some (exSoftmax.logupProofs.map (·.outputClaims), exSoftmax.evaluations, ⟨[13, 8, 10], 3 * mle exScores [13, 8, 10]⟩, []) := by
  decide +kernel

end Props
