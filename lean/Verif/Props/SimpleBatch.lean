import Verif.Lemmas.SimpleBatch
import Verif.Props.Basefold
import Verif.Props.BasefoldBatch
import Verif.Lemmas.Conv

/-! C100: several polynomials under one commitment, opened at one point. -/

open Spec Model Lemmas

namespace Props

variable {B E D : Type} [Field E] [DecidableEq E] [DecidableEq D]

theorem sb_open_trivial (S : CodeScheme E) (env : BfEnv B E D) (n : ℕ) (hn : 0 < n) (hb : n ≤ S.basecodeLog) (hmax : n ≤ S.maxLog)
    (fs : List (List E)) (hne : fs ≠ []) (hfs : ∀ f ∈ fs, f.length = 2 ^ n) (point : List E) (ts : env.T.State) :
    ∃ comm root proof ts', sbCommit S env.hasher (fs.map fun f => ⟨n, f⟩) = some comm ∧ comm.tree.root = some root ∧
      sbOpen S env (fs.map fun f => ⟨n, f⟩) comm point (fs.map fun f => mle f point) ts = some (proof, ts') ∧
      sbVerify S env root (some n) (some fs.length) point (fs.map fun f => mle f point) proof ts = some ts' := by
  obtain ⟨k, rfl⟩ : ∃ k, n = k + 1 := ⟨n - 1, by omega⟩
  obtain ⟨f0, fr, hf0⟩ : ∃ f0 fr, fs = f0 :: fr := by
    rcases fs with _ | ⟨a, l⟩
    · exact absurd rfl hne
    · exact ⟨a, l, rfl⟩
  obtain ⟨tree, root, _, t1, t2, _, _⟩ := C42_batch_ext env.hasher fs 0 k 0 hne hfs (Nat.two_pow_pos _)
  have hhead : (fs.map fun f => (⟨k + 1, f⟩ : Mle E)).head? = some ⟨k + 1, f0⟩ := by rw [hf0]; rfl
  refine ⟨⟨tree, fs, k + 1⟩, root, ⟨[], [], [], [], fs.map fun l => .ext l⟩, ts, ?_, t2, ?_, ?_⟩
  · unfold sbCommit
    rw [hhead]
    simp only [Option.bind_eq_bind, Option.bind_some]
    rw [if_pos (by simp), if_neg (by omega), if_pos hb, List.map_map, List.map_map]
    have e1 : fs.map ((fun p : Mle E => (FieldType.ext p.evals : FieldType B E)) ∘ fun f => ⟨k + 1, f⟩) = fs.map fun p => FieldType.ext p := rfl
    have e2 : fs.map ((fun p : Mle E => p.evals) ∘ fun f => ⟨k + 1, f⟩) = fs := List.map_id fs
    rw [e1, e2, t1]
    rfl
  · unfold sbOpen
    rw [hhead]
    simp only [Option.bind_eq_bind, Option.bind_some]
    rw [if_pos hb]
  · unfold sbVerify
    rw [if_pos (Or.inr (by simp)), if_pos (by rw [hf0]; simp)]
    simp only [t1, t2, Option.bind_eq_bind, Option.bind_some, if_true]

/-- C100 for the Reed-Solomon code: for every nonempty list of tables of `2^n` values, every point, transcript and hash function, `batch_commit`, `simple_batch_open` and
`simple_batch_verify` succeed with the values of the multilinear extensions at the point, and prover and verifier end in the same transcript. Above the base code's size the proof
has one message per folded variable and the number of queries of the code. -/
theorem C100_rs (spec : RsSpec) (gen : ℕ → E) (gamma : E) (setupLog maxLog : ℕ)
    (hg : IsPrimitiveRoot (gen (setupLog + spec.rateLog)) (2 ^ (setupLog + spec.rateLog))) (hgamma : gamma ≠ 0) (h2 : (2 : E) ≠ 0)
    (hm : maxLog ≤ setupLog) (hb : spec.basecodeLog ≤ maxLog) (hb0 : 0 < spec.basecodeLog) (env : BfEnv B E D)
    (n : ℕ) (hn : 0 < n) (hmax : n ≤ maxLog) (fs : List (List E)) (hne : fs ≠ []) (hfs : ∀ f ∈ fs, f.length = 2 ^ n) (point : List E) (hp : point.length = n) (ts : env.T.State) :
    ∃ S comm root proof ts', rsScheme spec gen gamma setupLog maxLog = some S ∧ sbCommit S env.hasher (fs.map fun f => ⟨n, f⟩) = some comm ∧
      comm.tree.root = some root ∧ sbOpen S env (fs.map fun f => ⟨n, f⟩) comm point (fs.map fun f => mle f point) ts = some (proof, ts') ∧
      sbVerify S env root (some n) (some fs.length) point (fs.map fun f => mle f point) proof ts = some ts' ∧
      (spec.basecodeLog < n → proof.queries.length = spec.numQueries ∧ proof.messages.length = n - spec.basecodeLog) := by
  obtain ⟨S, e1, e2, e3, e4, e5, e6, good⟩ := rsScheme_good spec gen gamma setupLog maxLog hg hgamma h2 hm hb
  by_cases hc : n ≤ spec.basecodeLog
  · obtain ⟨comm, root, proof, ts', h1, h3, h4, h5⟩ := sb_open_trivial S env n hn (by omega) (by omega) fs hne hfs point ts
    exact ⟨S, comm, root, proof, ts', e1, h1, h3, h4, h5, fun h => by omega⟩
  · obtain ⟨comm, root, proof, ts', h1, h3, h4, h5, h6, h7⟩ := sb_open_full S _ good (rsWord_linear S _ e2 _ _ _) env (by omega) n (by omega) (by omega) fs hne hfs point hp ts
    exact ⟨S, comm, root, proof, ts', e1, h1, h3, h4, h5, fun _ => ⟨by rw [h6, e5], by rw [h7, e3]⟩⟩

/-- C100 for the random foldable code. -/
theorem C100_basecode (spec : BasecodeSpec) (flat : ℕ → E) (setupLog maxLog : ℕ) (h2 : (2 : E) ≠ 0)
    (hflat : ∀ i, i < 2 ^ (spec.rateLog + setupLog) → flat i ≠ 0) (hpos : 0 < spec.rateLog + setupLog) (hm : maxLog ≤ setupLog)
    (hb : spec.basecodeLog ≤ maxLog) (hb0 : 0 < spec.basecodeLog) (env : BfEnv B E D)
    (n : ℕ) (hn : 0 < n) (hmax : n ≤ maxLog) (fs : List (List E)) (hne : fs ≠ []) (hfs : ∀ f ∈ fs, f.length = 2 ^ n) (point : List E) (hp : point.length = n) (ts : env.T.State) :
    ∃ S comm root proof ts', basecodeScheme spec flat setupLog maxLog = some S ∧ sbCommit S env.hasher (fs.map fun f => ⟨n, f⟩) = some comm ∧
      comm.tree.root = some root ∧ sbOpen S env (fs.map fun f => ⟨n, f⟩) comm point (fs.map fun f => mle f point) ts = some (proof, ts') ∧
      sbVerify S env root (some n) (some fs.length) point (fs.map fun f => mle f point) proof ts = some ts' ∧
      (spec.basecodeLog < n → proof.queries.length = spec.numQueries ∧ proof.messages.length = n - spec.basecodeLog) := by
  obtain ⟨S, e1, e2, e3, e4, e5, e6, good⟩ := basecodeScheme_good spec flat setupLog maxLog h2 hflat hpos hm hb
  by_cases hc : n ≤ spec.basecodeLog
  · obtain ⟨comm, root, proof, ts', h1, h3, h4, h5⟩ := sb_open_trivial S env n hn (by omega) (by omega) fs hne hfs point ts
    exact ⟨S, comm, root, proof, ts', e1, h1, h3, h4, h5, fun h => by omega⟩
  · obtain ⟨comm, root, proof, ts', h1, h3, h4, h5, h6, h7⟩ := sb_open_full S _ good (basecodeWord_linear S _ _ _ e3 e2) env (by omega) n (by omega) (by omega) fs hne hfs point hp ts
    exact ⟨S, comm, root, proof, ts', e1, h1, h3, h4, h5, fun _ => ⟨by rw [h6, e5], by rw [h7, e3]⟩⟩

/-- Three polynomials of three variables: the right values are accepted, a wrong one is not. -/
example : (do
    let S ← rsScheme ⟨2, 1, 1⟩ (fun k => (3 : ZMod 17) ^ 2 ^ (4 - k)) 3 3 3
    let fs : List (List (ZMod 17)) := [[1, 5, 7, 2, 9, 0, 3, 16], [4, 15, 6, 3, 8, 8, 1, 0], [2, 0, 11, 13, 4, 9, 7, 5]]
    let comm ← sbCommit S toyEnv.hasher (fs.map fun f => ⟨3, f⟩)
    let root ← comm.tree.root
    let ts : List (ZMod 17) := [3, 8, 15, 9, 1, 2, 4, 5]
    let ys := fs.map fun f => mle f [2, 4, 11]
    let proof ← sbOpen S toyEnv (fs.map fun f => ⟨3, f⟩) comm [2, 4, 11] ys ts
    let good ← sbVerify S toyEnv root (some 3) (some 3) [2, 4, 11] ys proof.1 ts
    some (proof.1.messages.length, proof.1.queries.length, good, (sbVerify S toyEnv root (some 3) (some 3) [2, 4, 11] (ys.map (· + 1)) proof.1 ts).isNone))
    = some (2, 2, [4, 5], true) := by decide +kernel

/-! ### What acceptance does not imply -/

/-- C100 is false: a proof that carries tables is accepted as soon as their tree has the root of the commitment, and the point and the values are never looked at. Whoever made the
commitment has such tables at every size (the codewords), so for every commitment one proof is accepted at every point for all values. -/
theorem C100_any_values_false (S : CodeScheme E) (env : BfEnv B E D) (polys : List (Mle E)) (comm : SbCommitted B E D) (root : D)
    (hc : sbCommit S env.hasher polys = some comm) (hroot : comm.tree.root = some root) (point evals : List E) (hl : evals.length = polys.length) (ts : env.T.State) :
    sbVerify S env root (some comm.numVars) (some polys.length) point evals ⟨[], [], [], [], comm.tree.leaves⟩ ts = some ts := by
  have key : ∃ ls : List (FieldType B E), ls ≠ [] ∧ MerkleTree.fromBatchLeaves env.hasher ls = some comm.tree := by
    unfold sbCommit at hc
    simp only [Option.bind_eq_bind, Option.bind_eq_some_iff] at hc
    obtain ⟨first, h1, hc⟩ := hc
    have hne : polys ≠ [] := by rintro rfl; simp at h1
    split at hc
    swap
    · cases hc
    split at hc
    · cases hc
    split at hc
    · simp only [Option.bind_eq_some_iff] at hc
      obtain ⟨tree, h2, hc⟩ := hc
      obtain rfl := Option.some.inj hc
      exact ⟨_, by simpa using hne, h2⟩
    · simp only [Option.bind_eq_some_iff] at hc
      obtain ⟨r, hr, tree, h2, hc⟩ := hc
      obtain rfl := Option.some.inj hc
      refine ⟨_, ?_, h2⟩
      have := mapM_length _ _ _ hr
      intro h
      have hr0 : r = [] := by simpa using h
      rw [hr0] at this
      exact hne (List.length_eq_zero_iff.mp (by simpa using this.symm))
  obtain ⟨ls, hls, ht⟩ := key
  unfold sbVerify
  rw [if_pos (Or.inr (by rw [hl])), fromBatchLeaves_leaves ht, if_pos hls]
  simp only [ht, hroot, Option.bind_eq_bind, Option.bind_some, if_true]

/-- C100 is false in a second way: the number of queries is not checked. For every digest, every point above the base code's size, all values and every transcript there
is a proof without queries and without tables that is accepted. -/
theorem C100_no_queries_false (spec : RsSpec) (gen : ℕ → E) (gamma : E) (setupLog maxLog : ℕ)
    (hg : IsPrimitiveRoot (gen (setupLog + spec.rateLog)) (2 ^ (setupLog + spec.rateLog))) (hgamma : gamma ≠ 0) (h2 : (2 : E) ≠ 0)
    (hm : maxLog ≤ setupLog) (hb : spec.basecodeLog ≤ maxLog) (hb0 : 0 < spec.basecodeLog) (env : BfEnv B E D)
    (n : ℕ) (hn : spec.basecodeLog < n) (hmax : n ≤ maxLog) :
    ∃ S, rsScheme spec gen gamma setupLog maxLog = some S ∧
      ∀ (root : D) (point evals : List E) (ts : env.T.State), point.length = n →
        ∃ proof ts', proof.queries = [] ∧ proof.trivial = [] ∧ sbVerify S env root (some n) (some evals.length) point evals proof ts = some ts' := by
  obtain ⟨S, e1, e2, e3, e4, e5, e6, good⟩ := rsScheme_good spec gen gamma setupLog maxLog hg hgamma h2 hm hb
  refine ⟨S, e1, ?_⟩
  intro root point evals ts hp
  have hy := innerProduct_zip (sbCoeffs env.T evals.length ts).1 evals (sbCoeffs_length env.T _ ts)
  obtain ⟨proof, ts', h1, h3, h4⟩ := forge_without_queries S _ good (by omega) env n (by omega) (by omega) root point hp _ (sbCoeffs env.T evals.length ts).2
  exact ⟨_, ts', rfl, rfl, sbVerify_of_single S env root (some n) point evals proof h3 _ ts ts' hy h4⟩

/-- C100 is false in a third way: the values enter the verdict only through their weighted sum, and the weights are drawn from the transcript before it has seen the values. An accepted proof,
whatever its queries, is accepted also after the first value is raised by `d` times the second weight and the second value lowered by `d` times the first. -/
theorem C100_values_unbound_false (S : CodeScheme E) (env : BfEnv B E D) (root : D) (commVars commPolys : Option ℕ) (point : List E) (y0 y1 : E) (ys : List E) (proof : SbProof B E D)
    (ts ts' : env.T.State) (h : sbVerify S env root commVars commPolys point (y0 :: y1 :: ys) proof ts = some ts') (d : E) (t : List E)
    (ht : t = (sampleBatch env.T (batchSizeLog (ys.length + 2)) ts).1) :
    sbVerify S env root commVars commPolys point ((y0 + d * chi t 1) :: (y1 - d * chi t 0) :: ys) proof ts = some ts' := by
  rw [← h]
  apply sbVerify_values
  · simp
  · rw [sbCoeffs_eq]
    simp only [List.length_cons, ← ht, show ys.length + 1 + 1 = ys.length + 2 from rfl]
    unfold innerProduct
    rw [if_pos (by simp), if_pos (by simp), List.range_succ_eq_map, List.range_succ_eq_map]
    simp only [List.map_cons, List.zipWith_cons_cons, List.sum_cons]
    congr 1
    ring

/-- In the honest run above the first two values are changed and the proof is still accepted. -/
example : (do
    let S ← rsScheme ⟨2, 1, 1⟩ (fun k => (3 : ZMod 17) ^ 2 ^ (4 - k)) 3 3 3
    let fs : List (List (ZMod 17)) := [[1, 5, 7, 2, 9, 0, 3, 16], [4, 15, 6, 3, 8, 8, 1, 0], [2, 0, 11, 13, 4, 9, 7, 5]]
    let comm ← sbCommit S toyEnv.hasher (fs.map fun f => ⟨3, f⟩)
    let root ← comm.tree.root
    let ts : List (ZMod 17) := [3, 8, 15, 9, 1, 2, 4, 5]
    let ys := fs.map fun f => mle f [2, 4, 11]
    let proof ← sbOpen S toyEnv (fs.map fun f => ⟨3, f⟩) comm [2, 4, 11] ys ts
    let t := (sampleBatch (tape (ZMod 17)) (batchSizeLog 3) ts).1
    let zs := [ys.getD 0 0 + 5 * chi t 1, ys.getD 1 0 - 5 * chi t 0, ys.getD 2 0]
    some (decide (zs = ys), (sbVerify S toyEnv root (some 3) (some 3) [2, 4, 11] zs proof.1 ts).isSome,
      (sbVerify S toyEnv root (some 3) (some 3) [9, 9, 9] [7, 7, 7] ⟨[], [], [], [], comm.tree.leaves⟩ ts).isSome)) = some (false, true, true) := by decide +kernel

/-! ### What acceptance does imply -/

/-- C100, part: if an opening without tables is accepted and the final message is the table of the weighted sum of some polynomials with its last variables fixed to the challenges, then all values are
those of the polynomials, or some value is wrong and the weighted errors cancel, or the prover was lucky in some round. Missing: that the final message belongs to the committed polynomials
(`C100_no_queries_false`), and proofs that carry tables (`C100_any_values_false`). -/
theorem C100_sumcheck_partial (S : CodeScheme E) (env : BfEnv B E D) (root : D) (commVars commPolys : Option ℕ) (point evals : List E) (proof : SbProof B E D) (ht : proof.trivial = [])
    (ts ts' : env.T.State) (hb : S.basecodeLog < point.length) (h : sbVerify S env root commVars commPolys point evals proof ts = some ts') :
    ∃ t ts1 cs ts2, sampleBatch env.T (batchSizeLog evals.length) ts = (t, ts1) ∧
      bfChallenges env (point.length - S.basecodeLog) proof.messages proof.roots ts1 = some (cs, ts2) ∧
      cs.length = point.length - S.basecodeLog ∧ proof.finalMessage.length = 2 ^ S.basecodeLog ∧
      ∀ (fs : List (List E)) (weights : List E), fs.length = evals.length → weights = (List.range evals.length).map (chi t) →
        (∀ i, i < 2 ^ S.basecodeLog → proof.finalMessage.getD i 0 = mle (combined point.length weights fs) (bitsPoint S.basecodeLog i ++ cs.reverse)) →
        evals = fs.map (fun f => mle f point) ∨
          LuckyBatch point.length (List.zipWith (fun f y => (f, point, y)) fs evals) weights ∨ LuckyOpening (combined point.length weights fs) point proof.messages cs := by
  obtain ⟨y, hy, hv⟩ := sbVerify_single S env root commVars commPolys point evals proof ht ts ts' h
  obtain ⟨cs, ts2, h1, h2, h3, h4⟩ := C46_sumcheck_partial S env root commVars point y _ rfl _ ts' hb hv
  refine ⟨(sampleBatch env.T (batchSizeLog evals.length) ts).1, (sampleBatch env.T (batchSizeLog evals.length) ts).2, cs, ts2, rfl, h1, h2, h3, ?_⟩
  intro fs weights hfl hw hfin
  rcases h4 (combined point.length weights fs) hfin with hval | hl
  swap
  · exact Or.inr (Or.inr hl)
  have hwl : weights.length = evals.length := by rw [hw]; simp
  rw [sbCoeffs_eq, ← hw, innerProduct_zip _ _ hwl] at hy
  have hm : mle (combined point.length weights fs) point = ((fs.zip weights).map fun p => mle p.1 point * p.2).sum := mle_sumWords point.length weights fs point rfl
  rw [hm, ← Option.some.inj hy] at hval
  by_cases hall : evals = fs.map fun f => mle f point
  · exact Or.inl hall
  refine Or.inr (Or.inl ⟨?_, ?_⟩)
  · by_contra hno
    push Not at hno
    apply hall
    apply List.ext_getElem
    · simp [hfl]
    · intro i a b
      have b' : i < fs.length := by simpa using b
      have := hno (fs[i], point, evals[i]) (by
        rw [List.mem_iff_getElem]
        exact ⟨i, by simp; omega, by simp⟩)
      rw [List.getElem_map]
      exact this
  · have : ∀ (fs : List (List E)) (ys ws : List E), fs.length = ys.length → ws.length = ys.length →
        (((List.zipWith (fun f y => (f, point, y)) fs ys).zip ws).map fun p => (p.1.2.2 - mle p.1.1 p.1.2.1) * 2 ^ (point.length - p.1.2.1.length) * p.2).sum
          = ((ys.zip ws).map fun p => p.1 * p.2).sum - ((fs.zip ws).map fun p => mle p.1 point * p.2).sum := by
      intro fs
      induction fs with
      | nil => intro ys ws e1 e2; rcases ys with _ | _ <;> simp at e1 ⊢
      | cons f fs ih =>
        intro ys ws e1 e2
        rcases ys with _ | ⟨y, ys⟩
        · simp at e1
        rcases ws with _ | ⟨w, ws⟩
        · simp at e2
        simp only [List.zipWith_cons_cons, List.zip_cons_cons, List.map_cons, List.sum_cons]
        rw [ih ys ws (by simpa using e1) (by simpa using e2), Nat.sub_self, pow_zero]
        ring
    rw [this fs evals weights hfl hwl, hval, sub_self]

/-- The hypotheses are met: in the honest run above the final message belongs to the weighted sum of the committed tables. -/
example : (do
    let S ← rsScheme ⟨2, 1, 1⟩ (fun k => (3 : ZMod 17) ^ 2 ^ (4 - k)) 3 3 3
    let fs : List (List (ZMod 17)) := [[1, 5, 7, 2, 9, 0, 3, 16], [4, 15, 6, 3, 8, 8, 1, 0], [2, 0, 11, 13, 4, 9, 7, 5]]
    let comm ← sbCommit S toyEnv.hasher (fs.map fun f => ⟨3, f⟩)
    let ts : List (ZMod 17) := [3, 8, 15, 9, 1, 2, 4, 5]
    let ys := fs.map fun f => mle f [2, 4, 11]
    let proof ← sbOpen S toyEnv (fs.map fun f => ⟨3, f⟩) comm [2, 4, 11] ys ts
    let t := sampleBatch (tape (ZMod 17)) (batchSizeLog 3) ts
    let cs ← bfChallenges toyEnv 2 proof.1.messages proof.1.roots t.2
    let table := combined 3 ((List.range 3).map (chi t.1)) fs
    some ((List.range 2).map fun i => decide (proof.1.finalMessage.getD i 0 = mle table (bitsPoint 1 i ++ cs.1.reverse)))) = some [true, true] := by decide +kernel

open Classical in
/-- C100, part: whatever the polynomials, the point and the values, at most `k / |E|` of the `k`-tuples of batching challenges let the errors of wrong values cancel, `2^k` being at least
the number of polynomials. This needs the values to be fixed before the challenges (`C100_values_unbound_false`). -/
theorem C100_weights_partial [Fintype E] (k : ℕ) (fs : List (List E)) (point evals : List E) (hl : fs.length = evals.length) (hk : evals.length ≤ 2 ^ k) (h2 : (2 : E) ≠ 0) :
    (Finset.univ.filter fun t : Fin k → E =>
      LuckyBatch point.length (List.zipWith (fun f y => (f, point, y)) fs evals) ((List.range evals.length).map (chi (List.ofFn t)))).card * Fintype.card E ≤ k * Fintype.card E ^ k := by
  have hlen : (List.zipWith (fun f y => (f, point, y)) fs evals).length = evals.length := by simp [hl]
  have := C86_weights_partial point.length k (List.zipWith (fun f y => (f, point, y)) fs evals) (by omega) h2
  rwa [hlen] at this

/-- The pairs of a query, hashed together and carried up along the path of the query from the index of the query, give the root. -/
def AuthenticBatch (H : MerkleHasher B E D) (q : SbQuery B E D) (root : D) : Prop :=
  match q.leaves with
  | .ext l => authenticateBatch H q.path (.ext (l.map fun x => x.1)) (.ext (l.map fun x => x.2)) q.index root = some true
  | .base l => authenticateBatch H q.path (.base (l.map fun x => x.1)) (.base (l.map fun x => x.2)) q.index root = some true

theorem authenticBatch_of_check (H : MerkleHasher B E D) (q : SbQuery B E D) (root : D) (h : q.checkPath H root = some ()) : AuthenticBatch H q root := by
  unfold SbQuery.checkPath at h
  unfold AuthenticBatch
  rcases hp : q.leaves with l | l <;> rw [hp] at h <;> simp only [Option.bind_eq_bind, Option.bind_eq_some_iff] at h ⊢ <;>
    obtain ⟨ok, h1, h2⟩ := h <;> cases ok <;> simp_all

/-- C100, part: if a proof that carries evaluations is accepted then the commitment is that of these evaluations and, where it records the number of polynomials, there are as many
values. Missing: that the values are those of the evaluations, which is false, see `C100_any_values_false`. -/
theorem C100_trivial_partial (S : CodeScheme E) (env : BfEnv B E D) (root : D) (commVars commPolys : Option ℕ) (point evals : List E) (proof : SbProof B E D) (ht : proof.trivial ≠ [])
    (ts ts' : env.T.State) (h : sbVerify S env root commVars commPolys point evals proof ts = some ts') :
    (∃ tree, MerkleTree.fromBatchLeaves env.hasher proof.trivial = some tree ∧ tree.root = some root) ∧ ∀ n, commPolys = some n → n = evals.length := by
  unfold sbVerify at h
  by_cases hc : commPolys = none ∨ commPolys = some evals.length
  swap
  · rw [if_neg hc] at h; cases h
  rw [if_pos hc, if_pos ht] at h
  simp only [Option.bind_eq_bind, Option.bind_eq_some_iff] at h
  obtain ⟨tree, h1, r, h2, h3⟩ := h
  by_cases hr : root = r
  swap
  · rw [if_neg hr] at h3; cases h3
  refine ⟨⟨tree, h1, hr ▸ h2⟩, fun n hn => ?_⟩
  rcases hc with hc | hc
  · rw [hc] at hn; cases hn
  · rw [hc] at hn; exact (Option.some.inj hn).symm

/-- The codewords of the run above are accepted as tables, other tables and another number of values are not. -/
example : (do
    let S ← rsScheme ⟨2, 1, 1⟩ (fun k => (3 : ZMod 17) ^ 2 ^ (4 - k)) 3 3 3
    let fs : List (List (ZMod 17)) := [[1, 5, 7, 2, 9, 0, 3, 16], [4, 15, 6, 3, 8, 8, 1, 0]]
    let comm ← sbCommit S toyEnv.hasher (fs.map fun f => ⟨3, f⟩)
    let root ← comm.tree.root
    let ts : List (ZMod 17) := [3, 8]
    some ((sbVerify S toyEnv root (some 3) (some 2) [2, 4, 11] [7, 7] ⟨[], [], [], [], comm.tree.leaves⟩ ts).isSome,
      (sbVerify S toyEnv root (some 3) (some 2) [2, 4, 11] [7, 7] ⟨[], [], [], [], fs.map fun f => .ext f⟩ ts).isSome,
      (sbVerify S toyEnv root (some 3) (some 2) [2, 4, 11] [7] ⟨[], [], [], [], comm.tree.leaves⟩ ts).isSome)) = some (true, false, false) := by decide +kernel

/-- C100, part: every query in an accepted proof that has a sampled position is at this position, its pairs are authenticated, the weighted sum of the pairs of the committed codewords is the first pair, and
along all rounds the pair folds to the entry of the next pair picked by the position, in the last round to the entry of the final codeword. Missing: that there are as many queries as sampled
positions, and that the pairs are authenticated at the positions of the query. -/
theorem C100_queries_partial (S : CodeScheme E) (env : BfEnv B E D) (root : D) (commVars commPolys : Option ℕ) (point evals : List E) (proof : SbProof B E D) (ht : proof.trivial = [])
    (ts ts' : env.T.State) (h : sbVerify S env root commVars commPolys point evals proof ts = some ts') :
    ∃ t ts1 cs ts2 codeword, sampleBatch env.T (batchSizeLog evals.length) ts = (t, ts1) ∧
      bfChallenges env (point.length - S.basecodeLog) proof.messages proof.roots ts1 = some (cs, ts2) ∧ bfFinalCodeword S proof.finalMessage = some codeword ∧
      ∀ (j : ℕ) (q : ℕ × SbQuery B E D) (x : E), proof.queries[j]? = some q →
        (bfSampleQueries env.T S.numQueries (env.T.appendExts ts2 proof.finalMessage)).1[j]? = some x →
        q.1 = env.toUsize x % 2 ^ (point.length + S.rateLog) ∧ AuthenticBatch env.hasher q.2 root ∧
        (∀ (i : ℕ) (o : CodeQuery B E D) (r : D), q.2.oracle[i]? = some o → proof.roots[i]? = some r → Authentic env.hasher o r) ∧
        ∀ pairs : List (E × E), (pairs = match q.2.leaves with
            | .ext l => l
            | .base l => l.map fun x => (env.embed x.1, env.embed x.2)) →
          pairs.length ≤ evals.length ∧
          ∀ (k : ℕ) (c : E), cs[k]? = some c → ∃ p,
            (((∑ j ∈ Finset.range pairs.length, chi t j * (pairs.getD j 0).1, ∑ j ∈ Finset.range pairs.length, chi t j * (pairs.getD j 0).2) :: q.2.oracle.map fun o => o.points.toExt env.embed)[k]? = some p) ∧ ∃ v,
            FoldTo S (point.length + S.rateLog - (k + 1)) (q.1 / 2 ^ (k + 1)) c p v ∧
            (k + 1 = cs.length → codeword[q.1 / 2 ^ (k + 1)]? = some v) ∧
            (k + 1 < cs.length → ∃ o, q.2.oracle[k]? = some o ∧
              v = if q.1 / 2 ^ (k + 1) % 2 = 0 then (o.points.toExt env.embed).1 else (o.points.toExt env.embed).2) := by
  unfold sbVerify at h
  by_cases hc : commPolys = none ∨ commPolys = some evals.length
  swap
  · rw [if_neg hc] at h; cases h
  rw [if_pos hc, if_neg (by simp [ht])] at h
  by_cases hv : commVars = none ∨ commVars = some point.length
  swap
  · rw [if_neg hv] at h; cases h
  rw [if_pos hv] at h
  simp only [Option.bind_eq_bind, Option.bind_eq_some_iff] at h
  obtain ⟨r, h1, c, h2, cf, h3, u, h4, h5⟩ := h
  unfold checkedSub at h1
  by_cases hb : S.basecodeLog ≤ point.length
  swap
  · rw [if_neg hb] at h1; cases h1
  rw [if_pos hb] at h1
  obtain rfl := Option.some.inj h1
  unfold sbQueryPhase at h4
  simp only [Option.bind_eq_bind, Option.bind_eq_some_iff] at h4
  obtain ⟨cw, g1, _, g2, y, _, fin, g3, g4⟩ := h4
  refine ⟨_, _, c.1, c.2, cw, rfl, h2, g1, ?_⟩
  intro j q x hq hx
  obtain ⟨e1, e2⟩ := sbCheckQueries_sound S env _ _ _ _ _ _ _ _ g2 j q (env.toUsize x % 2 ^ (point.length + S.rateLog)) hq (by
    rw [List.getElem?_map, hx]; rfl)
  rw [← e1] at e2
  unfold SbQuery.check at e2
  simp only [Option.bind_eq_bind, Option.bind_eq_some_iff] at e2
  obtain ⟨_, p1, _, p2, cur, p3, p4⟩ := e2
  refine ⟨e1, authenticBatch_of_check _ _ _ p2, fun i o r ho hr => authentic_of_check _ _ _ (checkPaths_sound env.hasher _ _ p1 i o r ho hr), ?_⟩
  intro pairs hpairs
  have p3 : (if pairs.length ≤ evals.length then some ((List.zipWith (fun c x => c * x.1) (sbCoeffs env.T evals.length ts).1 pairs).sum,
      (List.zipWith (fun c x => c * x.2) (sbCoeffs env.T evals.length ts).1 pairs).sum) else none) = some cur := by
    rw [← p3]
    unfold batchPair
    simp only [sbCoeffs_length]
    rcases hq : q.2.leaves with l | l <;> rw [hq] at hpairs <;> simp only at hpairs ⊢ <;> rw [hpairs] <;> rfl
  by_cases hpl : pairs.length ≤ evals.length
  swap
  · rw [if_neg hpl] at p3; cases p3
  rw [if_pos hpl] at p3
  refine ⟨hpl, ?_⟩
  have hsum : ∀ g : E × E → E, (List.zipWith (fun c x => c * g x) (sbCoeffs env.T evals.length ts).1 pairs).sum
      = ∑ j ∈ Finset.range pairs.length, chi (sampleBatch env.T (batchSizeLog evals.length) ts).1 j * g (pairs.getD j 0) := by
    intro g
    rw [sbCoeffs_eq, ← sum_map_range]
    congr 1
    apply List.ext_getElem
    · simp; omega
    · intro i a b
      have hi : i < pairs.length := by simpa using b
      simp [List.getD_eq_getElem?_getD, hi]
  rw [hsum (fun x => x.1), hsum (fun x => x.2)] at p3
  rw [Option.some.inj p3]
  intro k c0 hk
  obtain ⟨p, s1, v, s2, s3, s4⟩ := queryFold_sound S env.embed _ _ _ _ _ _ _ p4 k c0 hk
  exact ⟨p, by simpa using s1, v, by simpa using s2, s3, s4⟩

end Props
