import Verif.Lemmas.BatchMerge

/-! Opening many polynomials at once: the whole protocol between honest parties. -/

open Spec Model

namespace Lemmas

variable {B E D : Type} [Field E] [DecidableEq E] [DecidableEq D]

/-! ### Small facts -/

theorem maxOf_spec (l : List ℕ) (m : ℕ) (hm : m ∈ l) (h : ∀ x ∈ l, x ≤ m) : maxOf l = some m := by
  have key : ∀ (l : List ℕ) (a : ℕ), (∀ x ∈ l, x ≤ m) → a ≤ m → (m ∈ l ∨ a = m) → l.foldl max a = m := by
    intro l
    induction l with
    | nil => intro a _ _ h; simpa using h
    | cons b l ih =>
      intro a h1 h2 h3
      rw [List.foldl_cons]
      have hb := h1 b (by simp)
      refine ih _ (fun x hx => h1 x (by simp [hx])) (by omega) ?_
      rcases h3 with h3 | h3
      · rcases List.mem_cons.mp h3 with h3 | h3
        · right; omega
        · left; exact h3
      · right; omega
  rcases l with _ | ⟨a, l⟩
  · simp at hm
  · simp only [maxOf]
    rw [key l a (fun x hx => h x (by simp [hx])) (h a (by simp))]
    rcases List.mem_cons.mp hm with hm | hm
    · right; exact hm.symm
    · left; exact hm

theorem sampleBatch_length (T : Transcript E) : ∀ (n : ℕ) (ts : T.State), (sampleBatch T n ts).1.length = n := by
  intro n
  induction n with
  | zero => intro ts; rfl
  | succ n ih => intro ts; simp [sampleBatch, ih]

theorem batch_coeffs_enough (T : Transcript E) (n : ℕ) (ts : T.State) : n ≤ (buildEq (sampleBatch T (batchSizeLog n) ts).1).length := by
  rw [buildEq_eq, List.length_map, List.length_range, sampleBatch_length]
  unfold batchSizeLog nextPow2
  rw [Nat.log_pow (by omega)]
  exact le_nextPow2 n

theorem commit_full (S : CodeScheme E) (word : ℕ → List E → List E) (good : GoodCode S word) (H : MerkleHasher B E D) (hb : 0 < S.basecodeLog)
    (n : ℕ) (hn : S.basecodeLog < n) (hmax : n ≤ S.maxLog) (f : List E) (hf : f.length = 2 ^ n) :
    ∃ tree root, bfCommit S H n f = some ⟨tree, bitrev 0 n f, n⟩ ∧ tree.root = some root ∧
      MerkleTree.fromBatchLeaves H [.ext (wordOf word n f)] = some tree ∧ tree.leaves = [.ext (wordOf word n f)] := by
  obtain ⟨i1, i2, i3⟩ := interpC_spec n (by omega) f hf
  obtain ⟨cw, e1, e2, e3⟩ := good.encode n (interpC f) (by omega) hmax i2
  have hwl := good.length n (interpC f) (by omega) hmax i2
  obtain ⟨O, hO⟩ : ∃ O, O = word n (interpC f) := ⟨_, rfl⟩
  rw [← hO] at e3 hwl
  obtain ⟨tree, root, _, t1, t2, _, _⟩ := Props.C42_single_ext H O 0 (n + S.rateLog - 1) 0 (by rw [hwl]; congr 1; omega) (Nat.two_pow_pos _)
  have hleaves : tree.leaves = [.ext O] := by
    unfold MerkleTree.fromBatchLeaves at t1
    rcases hm : merkelize H [FieldType.ext O] with _ | inner
    · rw [hm] at t1; cases t1
    · rw [hm] at t1
      cases t1
      rfl
  unfold wordOf
  rw [← hO]
  refine ⟨tree, root, ?_, t2, t1, hleaves⟩
  unfold bfCommit
  rw [if_neg (by omega), if_neg (by omega), bfMessage_eq S n (by omega) f hf]
  simp only [Option.bind_eq_bind, Option.bind_some, e1]
  rw [reverseIndexBits_eq 0 n f hf, reverseIndexBits_eq 0 _ cw e2, e3]
  simp only [Option.bind_some, t1]

/-! ### The opening -/

/-- A commitment of the honest prover, with its root. -/
structure Committed (S : CodeScheme E) (word : ℕ → List E → List E) (H : MerkleHasher B E D) (p : ℕ × List E) (c : BfCommitted B E D) (root : D) : Prop where
  commit : bfCommit S H p.1 p.2 = some c
  root : c.tree.root = some root
  tree : MerkleTree.fromBatchLeaves H [.ext (wordOf word p.1 p.2)] = some c.tree
  leaves : c.tree.leaves = [.ext (wordOf word p.1 p.2)]
  bh : c.bhEvals = bitrev 0 p.1 p.2
  vars : c.numVars = p.1

theorem commits_exist (S : CodeScheme E) (word : ℕ → List E → List E) (good : GoodCode S word) (H : MerkleHasher B E D) (hb : 0 < S.basecodeLog) :
    ∀ (fs : List (ℕ × List E)), (∀ p ∈ fs, S.basecodeLog < p.1 ∧ p.1 ≤ S.maxLog ∧ p.2.length = 2 ^ p.1) →
      ∃ cr : List (BfCommitted B E D × D), cr.length = fs.length ∧
        (∀ (j : ℕ) (p : ℕ × List E) (q : BfCommitted B E D × D), fs[j]? = some p → cr[j]? = some q → Committed S word H p q.1 q.2) ∧
        (fs.mapM fun p => bfCommit S H p.1 p.2) = some (cr.map Prod.fst) ∧ ((cr.map Prod.fst).mapM fun c => c.tree.root) = some (cr.map Prod.snd) := by
  intro fs
  induction fs with
  | nil => intro _; exact ⟨[], rfl, by simp, rfl, rfl⟩
  | cons p fs ih =>
    intro h
    obtain ⟨h1, h2, h3⟩ := h p (by simp)
    obtain ⟨cr, c1, c2, c3, c4⟩ := ih (fun q hq => h q (by simp [hq]))
    obtain ⟨tree, root, t1, t2, t3, t4⟩ := commit_full S word good H hb p.1 h1 h2 p.2 h3
    refine ⟨(⟨tree, bitrev 0 p.1 p.2, p.1⟩, root) :: cr, by simp [c1], ?_, ?_, ?_⟩
    · intro j p' q hp hq
      rcases j with _ | j
      · simp only [List.getElem?_cons_zero, Option.some.injEq] at hp hq
        subst hp; subst hq
        exact ⟨t1, t2, t3, t4, rfl, rfl⟩
      · simp only [List.getElem?_cons_succ] at hp hq
        exact c2 j p' q hp hq
    · rw [List.mapM_cons, t1, c3]; rfl
    · rw [List.map_cons, List.mapM_cons, t2, c4]; rfl

/-- The committed polynomials with their coefficients. -/
def itemsOf (fs : List (ℕ × List E)) (coeffs : List E) : List (Item E) := List.zipWith (fun p c => (p.1, p.2, c)) fs coeffs

theorem itemsOf_at (fs : List (ℕ × List E)) (coeffs : List E) (h : coeffs.length = fs.length) (j : ℕ) (t : Item E)
    (ht : (itemsOf fs coeffs)[j]? = some t) : fs[j]? = some (t.1, t.2.1) ∧ coeffs[j]? = some t.2.2 := by
  unfold itemsOf at ht
  rw [List.getElem?_zipWith] at ht
  rcases h1 : fs[j]? with _ | p
  · rw [h1] at ht; simp at ht
  · rcases h2 : coeffs[j]? with _ | c
    · rw [h1, h2] at ht; simp at ht
    · rw [h1, h2] at ht
      simp only [Option.some.injEq] at ht
      subst ht
      exact ⟨rfl, rfl⟩

/-- The commit and query phase of an honest opening convince the verifier of the batched value. -/
theorem batch_tail (S : CodeScheme E) (word : ℕ → List E → List E) (good : GoodCode S word) (linear : LinearCode S word) (env : BfEnv B E D)
    (hb : 0 < S.basecodeLog) (fs : List (ℕ × List E)) (hfs : ∀ p ∈ fs, S.basecodeLog < p.1 ∧ p.1 ≤ S.maxLog ∧ p.2.length = 2 ^ p.1)
    (N : ℕ) (hNb : S.basecodeLog < N) (hN : N ≤ S.maxLog) (hle : ∀ p ∈ fs, p.1 ≤ N) (cr : List (BfCommitted B E D × D)) (hcr : cr.length = fs.length)
    (hcom : ∀ (j : ℕ) (p : ℕ × List E) (q : BfCommitted B E D × D), fs[j]? = some p → cr[j]? = some q → Committed S word env.hasher p q.1 q.2)
    (coeffs : List E) (hco : coeffs.length = fs.length) (point : List E) (hp : point.length = N) (ts : env.T.State) :
    ∃ cp queries, batchCommitPhase S env point (cr.map Prod.fst) coeffs N (N - S.basecodeLog) ts = some cp ∧
      ((bfSampleQueries env.T S.numQueries cp.ts).1.mapM fun x =>
        batchGetQuery (cr.map Prod.fst) cp.trees (N + S.rateLog) (env.toUsize x % 2 ^ (N + S.rateLog))) = some queries ∧
      queries.length = S.numQueries ∧ cp.messages.length = N - S.basecodeLog ∧
      ∀ msgs : Option (List (List E)), batchVerifyTail S env (cr.map Prod.snd) (fs.map Prod.fst) coeffs point N (N - S.basecodeLog)
        ((List.range fs.length).map fun i => mle (fs.getD i (0, [])).2 (point.take (fs.getD i (0, [])).1) * coeffs.getD i 0).sum
        ⟨cp.messages, cp.roots, cp.finalMessage, queries, msgs, []⟩ ts = some (bfSampleQueries env.T S.numQueries cp.ts).2 := by
  obtain ⟨r, rfl⟩ : ∃ r, N = S.basecodeLog + r + 1 := ⟨N - S.basecodeLog - 1, by omega⟩
  obtain ⟨N, hNe⟩ : ∃ N, N = S.basecodeLog + r + 1 := ⟨_, rfl⟩
  rw [← hNe] at hNb hN hle hp
  obtain ⟨L, hLd⟩ : ∃ L, L = itemsOf fs coeffs := ⟨_, rfl⟩
  have hLat := fun j t (ht : L[j]? = some t) => itemsOf_at fs coeffs hco j t (by rw [← hLd]; exact ht)
  have hLlen : L.length = fs.length := by rw [hLd]; simp [itemsOf, hco]
  have hLmem : ∀ t ∈ L, ((t.1, t.2.1) : ℕ × List E) ∈ fs := by
    intro t ht
    obtain ⟨j, hj, he⟩ := List.getElem_of_mem ht
    have := (hLat j t (by rw [List.getElem?_eq_getElem hj, he])).1
    exact List.mem_of_getElem? this
  have hL : ItemsOk S L := ⟨fun t ht => (hfs _ (hLmem t ht)).2.2, fun t ht => (hfs _ (hLmem t ht)).1, fun t ht => (hfs _ (hLmem t ht)).2.1⟩
  have hLN : ∀ t ∈ L, t.1 ≤ N := fun t ht => hle _ (hLmem t ht)
  have hLvars : L.map (fun t => t.1) = fs.map Prod.fst := by
    rw [hLd]
    apply List.ext_getElem
    · simp [itemsOf, hco]
    · intro i h1 h2; simp [itemsOf]
  have hLco : L.map (fun t => t.2.2) = coeffs := by
    rw [hLd]
    apply List.ext_getElem
    · simp [itemsOf, hco]
    · intro i h1 h2; simp [itemsOf]
  -- the codewords
  have hget : ∀ j, j < fs.length → ∃ p q, fs[j]? = some p ∧ cr[j]? = some q ∧ Committed S word env.hasher p q.1 q.2 := by
    intro j hj
    exact ⟨fs[j], cr[j], List.getElem?_eq_getElem hj, List.getElem?_eq_getElem (by omega), hcom j _ _ (List.getElem?_eq_getElem hj) (List.getElem?_eq_getElem (by omega))⟩
  have hcw : ∀ j, (h : j < cr.length) → (cr[j].1).codeword = some (wordOf word (fs[j]'(by omega)).1 (fs[j]'(by omega)).2) := by
    intro j h
    have hc := hcom j (fs[j]'(by omega)) cr[j] (List.getElem?_eq_getElem _) (List.getElem?_eq_getElem h)
    unfold BfCommitted.codeword
    rw [hc.leaves]
  have hwords : (cr.map Prod.fst).mapM BfCommitted.codeword = some (fs.map fun p => wordOf word p.1 p.2) := by
    have h1 := mapM_some' BfCommitted.codeword (fun c : BfCommitted B E D => c.codeword.getD []) (cr.map Prod.fst) (by
      intro c hc
      obtain ⟨j, hj, he⟩ := List.getElem_of_mem hc
      simp only [List.length_map] at hj
      simp only [List.getElem_map] at he
      rw [← he, hcw j hj]
      rfl)
    rw [h1]
    congr 1
    apply List.ext_getElem
    · simp [hcr]
    · intro i h1 h2
      simp only [List.length_map] at h1
      simp only [List.getElem_map]
      rw [hcw i h1]
      rfl
  have hzip : (fs.map fun p => wordOf word p.1 p.2).zip coeffs = itemWords word L := by
    rw [hLd]
    unfold itemWords itemsOf
    apply List.ext_getElem
    · simp
    · intro i h1 h2; simp
  have hzero : List.replicate (2 ^ (N + S.rateLog)) (0 : E) = wordOf word N (List.replicate (2 ^ N) 0) := by
    unfold wordOf
    rw [interpC_zero N (by omega), linear.zero N (by omega) hN]
  have htable : ((cr.map Prod.fst).zip coeffs).foldlM (fun acc p => addRepeated N acc p.1.bhEvals p.2) (List.replicate (2 ^ N) 0)
      = some (bitrev 0 N (batchTable L N)) := by
    have hstart : List.replicate (2 ^ N) (0 : E) = bitrev 0 N (batchTable [] N) := by
      apply list_ext_getD 0
      · simp [bitrev_length]
      · intro i hi
        simp only [List.length_replicate] at hi
        rw [getD_replicate_zero, bitrev_getD _ _ _ _ hi]
        unfold batchTable
        rw [getD_map_range' _ _ _ _ (revBits_lt _ _)]
        rfl
    rw [hstart]
    refine addRepeated_fold N L hL.len hLN (fun c : BfCommitted B E D => c.bhEvals) ((cr.map Prod.fst).zip coeffs) [] (by simp) L rfl ?_
    rw [hLd]
    unfold itemsOf
    apply List.ext_getElem
    · simp [hcr]
    · intro i h1 h2
      simp only [List.length_map, List.length_zip] at h1
      have hi : i < cr.length := by omega
      have hc := hcom i (fs[i]'(by omega)) cr[i] (List.getElem?_eq_getElem _) (List.getElem?_eq_getElem hi)
      simp only [List.getElem_map, List.getElem_zip, List.getElem_zipWith, hc.bh]
  -- the commit phase
  have hbe : buildEq point = (List.range (2 ^ N)).map fun i => 1 * chi point i := by
    rw [buildEq_eq, hp]; simp
  obtain ⟨g, hg⟩ : ∃ g, g = (List.range (2 ^ N)).map fun i => 1 * chi point i := ⟨_, rfl⟩
  rw [← hg] at hbe
  have hgl : g.length = 2 ^ N := by rw [hg]; simp
  obtain ⟨f, hfd⟩ : ∃ f, f = batchTable L N := ⟨_, rfl⟩
  have hf : f.length = 2 ^ N := by rw [hfd]; simp [batchTable]
  have hsh : S.basecodeLog + r + 1 = N := hNe.symm
  obtain ⟨v, v1, v2⟩ := level_interp (S.basecodeLog + r) f
  obtain ⟨w, w1, w2⟩ := level_interp (S.basecodeLog + r) g
  rw [hsh] at v1 w1
  obtain ⟨last, l1, _, _⟩ := level_message (S.basecodeLog + r) f g v w (by rw [hf, hsh]) (by rw [hgl, hsh]) v2 w2
  obtain ⟨cp, cs, ts', c1, c2, c3, c4, c5, c6, c7, c8⟩ := batchCommitLoop_spec S word good linear env hb L hL r (List.replicate (2 ^ N) 0) f g v w last ts
    (by omega) (by rw [hsh]; simp) (by rw [hf, hsh]) (by rw [hgl, hsh]) (by
      rw [hsh]
      intro j hj
      rw [hfd, batchTable_low L N j hj hLN, (tabMerge_spec L N hL.len _ (by simp)).2 j hj, getD_replicate_zero, zero_add]) v2 w2 l1
  rw [hsh, ← hzero] at c1 c8
  have hphase : batchCommitPhase S env point (cr.map Prod.fst) coeffs N (r + 1) ts = some cp := by
    unfold batchCommitPhase
    rw [hwords, hbe, reverseIndexBits_eq 0 N g hgl]
    simp only [Option.bind_eq_bind, Option.bind_some]
    rw [htable, hzip]
    simp only [Option.bind_some, bfFirstRound, Option.bind_eq_bind, ← hfd]
    rw [v1, w1]
    simp only [Option.bind_some, l1, c1]
  have hfl : (fixHigh f cs).length = 2 ^ S.basecodeLog := by
    rw [fixHigh_length f cs _ hf (by omega)]; congr 1; omega
  -- the queries
  have hquery : ∀ x, x < 2 ^ (N + S.rateLog) → ∃ q, batchGetQuery (cr.map Prod.fst) cp.trees (N + S.rateLog) x = some (x, q) ∧
      ∀ final, final = wordOf word S.basecodeLog (fixHigh f cs) →
        q.check S env cs N final cp.roots (cr.map Prod.snd) (fs.map Prod.fst) coeffs x = some () := by
    intro x hx
    -- the queries to the commitments
    have hcq : ∀ (l : List (BfCommitted B E D × D)) (l' : List (ℕ × List E)), l.length = l'.length →
        (∀ (j : ℕ) p q, l'[j]? = some p → l[j]? = some q → Committed S word env.hasher p q.1 q.2) →
        (∀ p ∈ l', S.basecodeLog < p.1 ∧ p.1 ≤ S.maxLog ∧ p.2.length = 2 ^ p.1) → (∀ p ∈ l', p.1 ≤ N) →
        ∃ Q : List (CodeQuery B E D), ((l.map Prod.fst).mapM fun comm => do
            let word ← comm.codeword
            let k ← log2Strict word.length
            let d ← checkedSub (N + S.rateLog) k
            bfGetPair comm.tree (x >>> d)) = some Q ∧ checkPaths env.hasher Q (l.map Prod.snd) = some () ∧
          ∀ (j : ℕ) (p : ℕ × List E), l'[j]? = some p → ∃ q : CodeQuery B E D, Q[j]? = some q ∧
            q.points = .ext ((wordOf word p.1 p.2).getD (2 * (x / 2 ^ (N - p.1) / 2)) 0) ((wordOf word p.1 p.2).getD (2 * (x / 2 ^ (N - p.1) / 2) + 1) 0) ∧
            q.index = 2 * (x / 2 ^ (N - p.1) / 2) := by
      intro l
      induction l with
      | nil =>
        intro l' hl _ _ _
        have : l' = [] := List.length_eq_zero_iff.mp (by simpa using hl.symm)
        subst this
        exact ⟨[], rfl, rfl, by simp⟩
      | cons c l ih =>
        intro l' hl hc hok hle'
        rcases l' with _ | ⟨p, l'⟩
        · simp at hl
        · obtain ⟨Q, q1, q2, q3⟩ := ih l' (by simpa using hl) (fun j p q hp hq => hc (j + 1) p q (by simpa using hp) (by simpa using hq))
            (fun p hp => hok p (by simp [hp])) (fun p hp => hle' p (by simp [hp]))
          have hcp := hc 0 p c rfl rfl
          obtain ⟨o1, o2, o3⟩ := hok p (by simp)
          have hpN := hle' p (by simp)
          have hwl := wordOf_length S word good hb p.1 (le_of_lt o1) o2 p.2 o3
          have hxd : x / 2 ^ (N - p.1) < 2 ^ (p.1 + S.rateLog) := by
            rw [Nat.div_lt_iff_lt_mul (Nat.two_pow_pos _), ← pow_add]
            rw [show p.1 + S.rateLog + (N - p.1) = N + S.rateLog by omega]
            exact hx
          obtain ⟨q, g1, g2, g3, g4⟩ := bfGetPair_spec env.hasher (wordOf word p.1 p.2) (p.1 + S.rateLog - 1) (x / 2 ^ (N - p.1))
            (by rw [hwl]; congr 1; omega) (by rw [show p.1 + S.rateLog - 1 + 1 = p.1 + S.rateLog by omega]; exact hxd) c.1.tree c.2 hcp.tree hcp.root
          refine ⟨q :: Q, ?_, ?_, ?_⟩
          · rw [List.map_cons, List.mapM_cons]
            have : c.1.codeword = some (wordOf word p.1 p.2) := by unfold BfCommitted.codeword; rw [hcp.leaves]
            rw [this, q1]
            simp only [Option.bind_eq_bind, Option.bind_some]
            rw [hwl, log2Strict_pow]
            simp only [Option.bind_some, checkedSub]
            rw [if_pos (by omega), show N + S.rateLog - (p.1 + S.rateLog) = N - p.1 by omega]
            simp only [Option.bind_some, Nat.shiftRight_eq_div_pow, g1]
            rfl
          · simp only [List.map_cons, checkPaths]
            rw [g4, q2]
            rfl
          · intro j p' hp'
            rcases j with _ | j
            · simp only [List.getElem?_cons_zero, Option.some.injEq] at hp'
              subst hp'
              exact ⟨q, rfl, g2, g3⟩
            · simp only [List.getElem?_cons_succ] at hp'
              obtain ⟨q', a1, a2, a3⟩ := q3 j p' hp'
              exact ⟨q', by simpa using a1, a2, a3⟩
    obtain ⟨Q, q1, q2, q3⟩ := hcq cr fs hcr hcom hfs hle
    have hCQ : CommitQueries word N x Q L := by
      intro j t ht
      exact q3 j (t.1, t.2.1) (hLat j t ht).1
    obtain ⟨qs, s1, s2, s3⟩ := batch_chain_queries S word good hb env L hL N hN _ x Q hCQ c8 0 x (by simp) (by simpa using hx) (by simp) (by omega)
    refine ⟨⟨qs, Q⟩, ?_, ?_⟩
    · unfold batchGetQuery
      rw [Nat.shiftRight_one, s1]
      simp only [Option.bind_eq_bind] at q1
      simp only [Option.bind_eq_bind, Option.bind_some, q1]
    · intro final hfin
      subst hfin
      unfold BatchQuery.check
      rw [hLvars, hLco, getD_replicate_zero, getD_replicate_zero] at s3
      simp only [s2, q2, Option.bind_eq_bind, Option.bind_some, s3]
  have hqs : ∀ xs : List E, ∃ qs, (xs.mapM fun x => batchGetQuery (cr.map Prod.fst) cp.trees (N + S.rateLog) (env.toUsize x % 2 ^ (N + S.rateLog))) = some qs ∧
      qs.length = xs.length ∧
      ∀ final, final = wordOf word S.basecodeLog (fixHigh f cs) →
        checkBatchQueries S env cs N final cp.roots (cr.map Prod.snd) (fs.map Prod.fst) coeffs qs (xs.map fun x => env.toUsize x % 2 ^ (N + S.rateLog)) = some () := by
    intro xs
    induction xs with
    | nil => exact ⟨[], rfl, rfl, fun _ _ => rfl⟩
    | cons x xs ih =>
      obtain ⟨qs, h1, h2, h3⟩ := ih
      obtain ⟨q, q1, q2⟩ := hquery (env.toUsize x % 2 ^ (N + S.rateLog)) (Nat.mod_lt _ (Nat.two_pow_pos _))
      refine ⟨(env.toUsize x % 2 ^ (N + S.rateLog), q) :: qs, ?_, by simp [h2], ?_⟩
      · rw [List.mapM_cons, q1, h1]; rfl
      · intro final hfin
        simp only [List.map_cons, checkBatchQueries]
        rw [if_pos trivial, q2 final hfin, h3 final hfin]
        rfl
  obtain ⟨R, hR⟩ : ∃ R, R = bfSampleQueries env.T S.numQueries cp.ts := ⟨_, rfl⟩
  obtain ⟨qs, qs1, qs2, qs3⟩ := hqs R.1
  have hRl : R.1.length = S.numQueries := by
    rw [hR]
    generalize cp.ts = t
    generalize S.numQueries = m
    induction m generalizing t with
    | zero => rfl
    | succ m ih => simp [bfSampleQueries, ih]
  rw [hsh, show N - S.basecodeLog = r + 1 by omega]
  refine ⟨cp, qs, hphase, by rw [← hR]; exact qs1, by rw [qs2, hRl], c3, ?_⟩
  intro msgs
  unfold batchVerifyTail
  rw [c5]
  simp only [Option.bind_eq_bind, Option.bind_some, c2, ← c6, ← hR, hp, show N - (r + 1) = S.basecodeLog by omega]
  have hdl : (point.drop S.basecodeLog).length = r + 1 := by rw [List.length_drop]; omega
  rw [eqXYEval_eq _ _ (by intro h; rw [h] at hdl; simp at hdl) (by rw [hdl, List.length_reverse, c2])]
  simp only [Option.bind_some]
  unfold batchQueryPhase bfFinalCodeword
  simp only
  rw [c4, bfMessage_eq S S.basecodeLog hb _ hfl]
  obtain ⟨sw, s1, s2, s3⟩ := good.small (interpC (fixHigh f cs)) (interpC_spec _ hb _ hfl).2.1
  simp only [Option.bind_eq_bind, Option.bind_some, s1]
  rw [reverseIndexBits_eq 0 _ sw s2, s3]
  simp only [Option.bind_some]
  have hq := qs3 _ rfl
  unfold wordOf at hq
  rw [hq]
  simp only [Option.bind_some]
  have htake : (point.take S.basecodeLog).length = S.basecodeLog := by rw [List.length_take]; omega
  have hpartial : (buildEq (point.take S.basecodeLog)).map (· * eqPoly (point.drop S.basecodeLog) cs.reverse) = fixHigh g cs := by
    have := fixHigh_chi (point.take S.basecodeLog) cs (point.drop S.basecodeLog) 1 (by rw [hdl, c2])
    rw [List.take_append_drop, htake, c2, ← add_assoc, hsh, ← hg] at this
    rw [this, buildEq_eq, htake, List.map_map]
    apply List.map_congr_left
    intro i _
    simp only [Function.comp]
    ring
  rw [hpartial]
  have hgfl : (fixHigh g cs).length = 2 ^ S.basecodeLog := by
    rw [fixHigh_length g cs N hgl (by omega)]; congr 1; omega
  have hinner : innerProduct (fixHigh f cs) (fixHigh g cs) = some (dotN (2 ^ S.basecodeLog) (fixHigh f cs) (fixHigh g cs)) := by
    unfold innerProduct
    rw [if_pos (by rw [hfl, hgfl])]
    congr 1
    have : List.zipWith (· * ·) (fixHigh f cs) (fixHigh g cs)
        = (List.range (2 ^ S.basecodeLog)).map fun i => (fixHigh f cs).getD i 0 * (fixHigh g cs).getD i 0 := by
      apply list_ext_getD 0
      · simp [hfl, hgfl]
      · intro i hi
        simp only [List.length_zipWith, hfl, hgfl, min_self] at hi
        rw [zipWith_getD _ _ _ _ (by omega) (by omega), getD_map_range' _ _ _ _ hi]
    rw [this, sum_map_range]
    rfl
  rw [hinner]
  simp only [Option.bind_some]
  have hclaim : dotN (2 ^ (S.basecodeLog + r + 1)) f g
      = ((List.range fs.length).map fun i => mle (fs.getD i (0, [])).2 (point.take (fs.getD i (0, [])).1) * coeffs.getD i 0).sum := by
    have h1 : dotN (2 ^ (S.basecodeLog + r + 1)) f g = mle f point := by
      unfold dotN mle
      rw [hp, hsh]
      refine Finset.sum_congr rfl fun i hi => ?_
      rw [hg, getD_map_range' _ _ _ _ (Finset.mem_range.mp hi), one_mul]
    rw [h1, hfd, mle_batchTable L N hLN point hp]
    congr 1
    apply List.ext_getElem
    · simp [hLlen]
    · intro i h1 h2
      simp only [List.length_map, List.length_range] at h1 h2
      simp only [List.getElem_map, List.getElem_range]
      obtain ⟨a1, a2⟩ := hLat i L[i] (List.getElem?_eq_getElem (by simpa using h1))
      rw [List.getD_eq_getElem?_getD, List.getD_eq_getElem?_getD, a1, a2]
      rfl
  rw [hclaim] at c7
  rw [c7]
  rfl

theorem batch_open_full (S : CodeScheme E) (word : ℕ → List E → List E) (good : GoodCode S word) (linear : LinearCode S word) (env : BfEnv B E D)
    (hb : 0 < S.basecodeLog) (fs : List (ℕ × List E)) (hfs : ∀ p ∈ fs, S.basecodeLog < p.1 ∧ p.1 ≤ S.maxLog ∧ p.2.length = 2 ^ p.1) (hne : fs ≠ [])
    (points : List (List E)) (evals : List (Evaluation E))
    (hclaims : ∀ e ∈ evals, ∃ f point, fs[e.poly]? = some f ∧ points[e.point]? = some point ∧ point.length = f.1 ∧ e.value = mle f.2 point)
    (hused : ∀ i, i < points.length → ∃ e ∈ evals, e.point = i) (hcover : ∀ f ∈ fs, ∃ point ∈ points, f.1 ≤ point.length) (ts : env.T.State) :
    ∃ comms roots proof ts', (fs.mapM fun p => bfCommit S env.hasher p.1 p.2) = some comms ∧ (comms.mapM fun c => c.tree.root) = some roots ∧
      batchOpen S env (fs.map fun p => ⟨p.1, p.2⟩) comms points evals ts = some (proof, ts') ∧
      batchVerify S env (List.zipWith (fun r p => ⟨r, some p.1⟩) roots fs) points evals proof ts = some ts' ∧
      proof.queries.length = S.numQueries ∧ roots.length = fs.length ∧ proof.trivial = [] := by
  obtain ⟨cr, hcr, hcom, hc1, hc2⟩ := commits_exist S word good env.hasher hb fs hfs
  obtain ⟨polys, hpolys⟩ : ∃ polys, polys = fs.map (fun p => (⟨p.1, p.2⟩ : Mle E)) := ⟨_, rfl⟩
  have hpl : polys.length = fs.length := by rw [hpolys]; simp
  have hpget : ∀ i, i < fs.length → polys.getD i ⟨0, []⟩ = ⟨(fs.getD i (0, [])).1, (fs.getD i (0, [])).2⟩ := by
    intro i hi
    rw [hpolys, List.getD_eq_getElem _ _ (by simpa using hi), List.getElem_map, List.getD_eq_getElem _ _ hi]
  have hclaim : ∀ e ∈ evals, ClaimOk polys points e ∧ S.basecodeLog < (points.getD e.point []).length ∧ (points.getD e.point []).length ≤ S.maxLog ∧
      e.value = mle (polys.getD e.poly ⟨0, []⟩).evals (points.getD e.point []) ∧ ((fs.getD e.poly (0, [])).1 = (points.getD e.point []).length ∧ e.poly < fs.length) := by
    intro e he
    obtain ⟨f, point, h1, h2, h3, h4⟩ := hclaims e he
    obtain ⟨a1, a2⟩ := List.getElem?_eq_some_iff.mp h1
    obtain ⟨b1, b2⟩ := List.getElem?_eq_some_iff.mp h2
    have hff : fs.getD e.poly (0, []) = f := by rw [List.getD_eq_getElem _ _ a1, a2]
    have hpp : points.getD e.point [] = point := by rw [List.getD_eq_getElem _ _ b1, b2]
    obtain ⟨o1, o2, o3⟩ := hfs f (by rw [← a2]; exact List.getElem_mem _)
    have hg := hpget e.poly a1
    rw [hff] at hg
    refine ⟨⟨by omega, b1, ?_, ?_, ?_⟩, ?_, ?_, ?_, ?_, a1⟩
    · rw [hg, hpp, h3]
    · rw [hg, hpp, h3]; exact o3
    · rw [hpp]; omega
    · rw [hpp]; omega
    · rw [hpp]; omega
    · rw [hg, hpp]; exact h4
    · rw [hff, hpp]; exact h3.symm
  have hpts : ∀ p ∈ points, S.basecodeLog < p.length ∧ p.length ≤ S.maxLog ∧ ∃ f ∈ fs, f.1 = p.length := by
    intro p hp
    obtain ⟨i, hi, hpi⟩ := List.getElem_of_mem hp
    obtain ⟨e, he, hei⟩ := hused i hi
    obtain ⟨_, h1, h2, _, h3, h4⟩ := hclaim e he
    have : points.getD e.point [] = p := by rw [hei, List.getD_eq_getElem _ _ hi, hpi]
    rw [this] at h1 h2 h3
    exact ⟨h1, h2, fs.getD e.poly (0, []), by rw [List.getD_eq_getElem _ _ h4]; exact List.getElem_mem _, h3⟩
  -- the largest number of variables
  obtain ⟨N, hNmem, hNmax⟩ : ∃ N ∈ fs.map Prod.fst, ∀ x ∈ fs.map Prod.fst, x ≤ N := by
    have hfin : (fs.map Prod.fst).toFinset.Nonempty := by
      rcases fs with _ | ⟨a, l⟩
      · exact absurd rfl hne
      · exact ⟨a.1, by simp⟩
    refine ⟨(fs.map Prod.fst).toFinset.max' hfin, ?_, ?_⟩
    · have := Finset.max'_mem _ hfin; simpa using this
    · intro x hx; exact Finset.le_max' _ _ (by simpa using hx)
  obtain ⟨fN, hfN, hfNe⟩ := List.mem_map.mp hNmem
  obtain ⟨o1, o2, _⟩ := hfs fN hfN
  rw [hfNe] at o1 o2
  have hNf : ∀ p ∈ fs, p.1 ≤ N := fun p hp => hNmax p.1 (List.mem_map.mpr ⟨p, hp, rfl⟩)
  have hNp : ∀ p ∈ points, p.length ≤ N := by
    intro p hp
    obtain ⟨_, _, f, hf, hfe⟩ := hpts p hp
    rw [← hfe]; exact hNf f hf
  have hmax1 : maxOf (polys.map Mle.numVars) = some N := by
    apply maxOf_spec
    · rw [hpolys, List.map_map]; exact hNmem
    · rw [hpolys, List.map_map]; exact hNmax
  have hmax2 : maxOf (points.map List.length) = some N := by
    apply maxOf_spec
    · obtain ⟨p, hp, hle⟩ := hcover fN hfN
      have := hNp p hp
      exact List.mem_map.mpr ⟨p, hp, by omega⟩
    · intro x hx
      obtain ⟨p, hp, rfl⟩ := List.mem_map.mp hx
      exact hNp p hp
  obtain ⟨msgs, cs, coeffs, ts1, r1, r2, r3, r4⟩ := batchReduce_spec env.T polys points evals N (by omega) (fun e he => (hclaim e he).1)
    (fun p hp => ⟨by have := (hpts p hp).1; omega, hNp p hp⟩) hused (fun e he => (hclaim e he).2.2.2.1)
    (fun ts => batch_coeffs_enough env.T evals.length ts) ts
  rw [hpl] at r1 r3 r4
  obtain ⟨cp, queries, p1, p2, p3, p4, p5⟩ := batch_tail S word good linear env hb fs hfs N o1 o2 hNf cr hcr hcom coeffs r3 cs r2 ts1
  have hvsum : ((List.range fs.length).map fun i => mle (polys.getD i ⟨0, []⟩).evals (cs.take (polys.getD i ⟨0, []⟩).numVars) * coeffs.getD i 0).sum
      = ((List.range fs.length).map fun i => mle (fs.getD i (0, [])).2 (cs.take (fs.getD i (0, [])).1) * coeffs.getD i 0).sum := by
    congr 1
    apply List.map_congr_left
    intro i hi
    rw [hpget i (List.mem_range.mp hi)]
  rw [hvsum] at r4
  obtain ⟨comms, hcomms⟩ : ∃ comms, comms = List.zipWith (fun (r : D) (p : ℕ × List E) => (⟨r, some p.1⟩ : BfCommitment D)) (cr.map Prod.snd) fs := ⟨_, rfl⟩
  have hcl : comms.length = fs.length := by rw [hcomms]; simp [hcr]
  have hcroot : comms.map BfCommitment.root = cr.map Prod.snd := by
    rw [hcomms]
    apply List.ext_getElem
    · simp [hcr]
    · intro i h1 h2; simp
  have hcvars : comms.mapM BfCommitment.numVars = some (fs.map Prod.fst) := by
    have h1 := mapM_some' BfCommitment.numVars (fun c : BfCommitment D => c.numVars.getD 0) comms (by
      intro c hc
      obtain ⟨i, hi, he⟩ := List.getElem_of_mem hc
      rw [← he]
      simp [hcomms])
    rw [h1]
    congr 1
    rw [hcomms]
    apply List.ext_getElem
    · simp [hcr]
    · intro i h1 h2; simp
  rw [← hpolys]
  refine ⟨cr.map Prod.fst, cr.map Prod.snd, ⟨cp.messages, cp.roots, cp.finalMessage, queries, some msgs, []⟩, (bfSampleQueries env.T S.numQueries cp.ts).2, hc1, hc2,
    ?_, ?_, p3, by simp [hcr], rfl⟩
  · unfold batchOpen
    rw [if_neg (by
      rintro ⟨h, _⟩
      rw [hpolys] at h
      exact hne (List.map_eq_nil_iff.mp h))]
    unfold batchOpenFull
    rw [hmax1]
    simp only [Option.bind_eq_bind, Option.bind_some]
    have hchecks : batchOpenChecks S polys (cr.map Prod.fst) points = true := by
      unfold batchOpenChecks
      simp only [Bool.and_eq_true, List.all_eq_true, decide_eq_true_eq]
      refine ⟨⟨?_, ?_⟩, ?_⟩
      · intro p hp
        rw [hpolys] at hp
        obtain ⟨q, hq, rfl⟩ := List.mem_map.mp hp
        exact ⟨(hfs q hq).1, (hfs q hq).2.1⟩
      · intro c hc
        obtain ⟨q, hq, rfl⟩ := List.mem_map.mp hc
        obtain ⟨i, hi, he⟩ := List.getElem_of_mem hq
        have hcc := hcom i (fs[i]'(by omega)) cr[i] (List.getElem?_eq_getElem _) (List.getElem?_eq_getElem hi)
        rw [he] at hcc
        rw [hcc.vars]
        exact (hfs _ (List.getElem_mem _)).1
      · intro p hp; exact (hpts p hp).2.1
    rw [if_pos hchecks, List.length_map, hcr, r1]
    simp only [Option.bind_some, checkedSub]
    rw [if_pos (by omega)]
    simp only [Option.bind_some]
    rw [p1]
    simp only [Option.bind_some]
    rw [p2]
    rfl
  · rw [← hcomms]
    unfold batchVerify
    rw [if_neg (by
      rintro ⟨h, _⟩
      rw [hcl] at h
      exact hne (List.length_eq_zero_iff.mp h))]
    unfold batchVerifyFull
    rw [hmax2]
    simp only [Option.bind_eq_bind, Option.bind_some, checkedSub]
    rw [if_pos (by omega), hcvars]
    simp only [Option.bind_some]
    have hsizes : batchSizesOk (fs.map Prod.fst) points evals = true := by
      unfold batchSizesOk
      rw [List.all_eq_true]
      intro e he
      obtain ⟨hc, _, _, _, h3, h4⟩ := hclaim e he
      rw [getElem?_of_lt points _ [] hc.point, List.getElem?_map, getElem?_of_lt fs _ (0, []) h4]
      simp only [Option.map_some, decide_eq_true_eq]
      exact h3.symm
    rw [if_pos ⟨hsizes, by simpa using hne, by
      intro v hv
      obtain ⟨p, hp, rfl⟩ := List.mem_map.mp hv
      exact le_of_lt (hfs p hp).1, rfl⟩, hcl, r4]
    simp only [Option.bind_some]
    rw [hcroot, p5 (some msgs)]

end Lemmas
