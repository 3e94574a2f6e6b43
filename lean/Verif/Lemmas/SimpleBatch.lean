import Verif.Model.SimpleBatch
import Verif.Spec.SimpleBatch
import Verif.Lemmas.BatchOpen

/-! Opening several polynomials at one point. -/

open Spec Model

namespace Lemmas

variable {B E D : Type} [Field E] [DecidableEq E] [DecidableEq D]

/-- Entry by entry the weighted sum. -/
def sumWords (size : ℕ) (weights : List E) (ls : List (List E)) : List E :=
  (List.range size).map fun i => ((ls.zip weights).map fun p => p.1.getD i 0 * p.2).sum

omit [DecidableEq E] in
theorem sumWords_lin (size : ℕ) (weights : List E) (ls : List (List E)) (hl : ∀ l ∈ ls, l.length = size) :
    sumWords size weights ls = (ls.zip weights).foldl (fun r t => lin r t.1 t.2) (List.replicate size 0) := by
  obtain ⟨h1, h2⟩ := foldl_lin_spec (ls.zip weights) size (List.replicate size 0) (by simp) (fun t ht => hl _ (List.of_mem_zip ht).1)
  apply list_ext_getD 0
  · rw [h1]; simp [sumWords]
  · intro i hi
    have hi' : i < size := by simpa [sumWords] using hi
    rw [h2 i hi', getD_replicate_zero, zero_add]
    unfold sumWords
    rw [getD_map_range' _ _ _ _ hi']

theorem wordOf_sum (S : CodeScheme E) (word : ℕ → List E → List E) (linear : LinearCode S word) (hb : 0 < S.basecodeLog)
    (k : ℕ) (h1 : S.basecodeLog ≤ k) (h2 : k ≤ S.maxLog) (good : GoodCode S word) (weights : List E) (fs : List (List E)) (hf : ∀ f ∈ fs, f.length = 2 ^ k) :
    wordOf word k (sumWords (2 ^ k) weights fs) = sumWords (2 ^ (k + S.rateLog)) weights (fs.map (wordOf word k)) := by
  rw [sumWords_lin _ _ _ hf, sumWords_lin _ _ _ (by
    intro l hl
    obtain ⟨f, hf', rfl⟩ := List.mem_map.mp hl
    exact wordOf_length S word good hb k h1 h2 f (hf f hf'))]
  have hz : List.replicate (2 ^ (k + S.rateLog)) (0 : E) = wordOf word k (List.replicate (2 ^ k) 0) := by
    unfold wordOf
    rw [interpC_zero k (by omega), linear.zero k h1 h2]
  rw [hz, List.zip_map_left, List.foldl_map]
  have key : ∀ (l : List (List E × E)) (A : List E), A.length = 2 ^ k → (∀ t ∈ l, t.1.length = 2 ^ k) →
      wordOf word k (l.foldl (fun r t => lin r t.1 t.2) A) = l.foldl (fun r t => lin r (wordOf word k t.1) t.2) (wordOf word k A) := by
    intro l
    induction l with
    | nil => intro A _ _; rfl
    | cons t l ih =>
      intro A hA hl
      have e2 := hl t (by simp)
      rw [List.foldl_cons, List.foldl_cons, ih (lin A t.1 t.2) (lin_length _ _ _ _ hA e2) (fun t' h' => hl t' (by simp [h']))]
      congr 1
      unfold wordOf
      rw [interpC_lin k (by omega) _ _ _ hA e2, linear.lin k _ _ _ h1 h2 (interpC_spec k (by omega) _ hA).2.1 (interpC_spec k (by omega) _ e2).2.1]
  exact key _ _ (by simp) (fun t ht => hf _ (List.of_mem_zip ht).1)

omit [DecidableEq E] in
theorem mapM_indexExt (ls : List (List E)) (i : ℕ) (h : ∀ l ∈ ls, i < l.length) :
    ((ls.map fun l => (FieldType.ext l : FieldType B E)).mapM fun t => t.indexExt i) = some (ls.map fun l => l.getD i 0) := by
  induction ls with
  | nil => rfl
  | cons l ls ih =>
    rw [List.map_cons, List.mapM_cons, ih (fun l' h' => h l' (by simp [h']))]
    have : (FieldType.ext l : FieldType B E).indexExt i = some (l.getD i 0) := by
      show l[i]? = _
      rw [List.getD_eq_getElem _ _ (h l (by simp)), List.getElem?_eq_getElem]
    rw [this]
    rfl

omit [DecidableEq E] in
theorem sbWeightedSum_eq (coeffs : List E) (size : ℕ) (ls : List (List E)) (hl : ∀ l ∈ ls, l.length = size) :
    sbWeightedSum coeffs size (ls.map fun l => (FieldType.ext l : FieldType B E)) = some (sumWords size coeffs ls) := by
  unfold sbWeightedSum sumWords
  apply mapM_some'
  intro i hi
  have hi' := List.mem_range.mp hi
  rw [mapM_indexExt ls i (fun l h => by rw [hl l h]; exact hi')]
  simp only [Option.bind_eq_bind, Option.bind_some, Option.some.injEq]
  rw [List.zipWith_map_left, ← List.map_uncurry_zip_eq_zipWith]
  rfl

theorem sbCoeffs_eq (T : Transcript E) (n : ℕ) (ts : T.State) :
    (sbCoeffs T n ts).1 = (List.range n).map (chi (sampleBatch T (batchSizeLog n) ts).1) := by
  unfold sbCoeffs buildEq
  simp only
  have hl := sampleBatch_length T (batchSizeLog n) ts
  rw [buildEqSeq_spec _ _ (by simp), hl, ← List.map_take, List.take_range]
  have : n ≤ 2 ^ batchSizeLog n := by
    have := le_nextPow2 n
    unfold batchSizeLog
    unfold nextPow2 at this ⊢
    rwa [Nat.log_pow (by omega)]
  rw [Nat.min_eq_left this]

theorem sbCoeffs_length (T : Transcript E) (n : ℕ) (ts : T.State) : (sbCoeffs T n ts).1.length = n := by
  rw [sbCoeffs_eq]; simp

omit [DecidableEq E] in
theorem sumWords_bitrev (n : ℕ) (w : List E) (fs : List (List E)) : sumWords (2 ^ n) w (fs.map (bitrev 0 n)) = bitrev 0 n (sumWords (2 ^ n) w fs) := by
  apply list_ext_getD 0
  · simp [sumWords, bitrev]
  · intro i hi
    have hi' : i < 2 ^ n := by simpa [sumWords] using hi
    rw [bitrev_getD 0 n _ i hi']
    unfold sumWords
    rw [getD_map_range' _ _ _ _ hi', getD_map_range' _ _ _ _ (revBits_lt n i), List.zip_map_left, List.map_map]
    congr 1
    apply List.map_congr_left
    intro p _
    simp only [Function.comp, Prod.map]
    rw [bitrev_getD 0 n _ i hi']
    rfl

omit [DecidableEq E] in
theorem mle_sumWords (n : ℕ) (w : List E) (fs : List (List E)) (point : List E) (hp : point.length = n) :
    mle (sumWords (2 ^ n) w fs) point = ((fs.zip w).map fun p => mle p.1 point * p.2).sum := by
  have : ∀ l : List (List E × E), (∑ i ∈ Finset.range (2 ^ n), (l.map fun p => p.1.getD i 0 * p.2).sum * chi point i) = (l.map fun p => mle p.1 point * p.2).sum := by
    intro l
    induction l with
    | nil => simp
    | cons p l ih =>
      simp only [List.map_cons, List.sum_cons, add_mul, Finset.sum_add_distrib]
      rw [ih]
      congr 1
      unfold mle
      rw [hp, Finset.sum_mul]
      exact Finset.sum_congr rfl fun i _ => by ring
  rw [← this]
  unfold mle
  rw [hp]
  refine Finset.sum_congr rfl fun i hi => ?_
  unfold sumWords
  rw [getD_map_range' _ _ _ _ (Finset.mem_range.mp hi)]

omit [DecidableEq E] in
theorem innerProduct_zip (w ys : List E) (h : w.length = ys.length) : innerProduct w ys = some ((ys.zip w).map fun p => p.1 * p.2).sum := by
  unfold innerProduct
  rw [if_pos h]
  congr 1
  rw [← List.map_uncurry_zip_eq_zipWith]
  have : w.zip ys = (ys.zip w).map Prod.swap := (List.zip_swap ys w).symm
  rw [this, List.map_map]
  congr 1
  apply List.map_congr_left
  intro p _
  exact mul_comm _ _

theorem bhEvalsCodeword_eq (S : CodeScheme E) (word : ℕ → List E → List E) (good : GoodCode S word) (hb : 0 < S.basecodeLog) (n : ℕ) (hn : S.basecodeLog < n) (hmax : n ≤ S.maxLog)
    (f : List E) (hf : f.length = 2 ^ n) : bhEvalsCodeword S f = some (bitrev 0 n f, wordOf word n f) := by
  obtain ⟨i1, i2, i3⟩ := interpC_spec n (by omega) f hf
  obtain ⟨cw, e1, e2, e3⟩ := good.encode n (interpC f) (by omega) (by omega) i2
  unfold bhEvalsCodeword
  rw [bfMessage_eq S n (by omega) f hf]
  simp only [Option.bind_eq_bind, Option.bind_some, e1]
  rw [reverseIndexBits_eq 0 n f hf, reverseIndexBits_eq 0 _ cw e2, e3]
  rfl

omit [DecidableEq E] [DecidableEq D] in
theorem fromBatchLeaves_leaves {H : MerkleHasher B E D} {ls : List (FieldType B E)} {tree : MerkleTree B E D} (h : MerkleTree.fromBatchLeaves H ls = some tree) : tree.leaves = ls := by
  unfold MerkleTree.fromBatchLeaves at h
  rcases hm : merkelize H ls with _ | inner
  · rw [hm] at h; cases h
  · rw [hm] at h
    cases h
    rfl

omit [DecidableEq E] in
theorem batchPair_eq (embed : B → E) (w : List E) (ls : List (List E)) (h : w.length = ls.length) (size j : ℕ) (hj : 2 * j + 1 < size) :
    batchPair embed w (.ext ((ls.map fun l => l.getD (2 * j) 0).zip (ls.map fun l => l.getD (2 * j + 1) 0)))
      = some ((sumWords size w ls).getD (2 * j) 0, (sumWords size w ls).getD (2 * j + 1) 0) := by
  unfold batchPair
  simp only
  rw [if_pos (by simp [h])]
  unfold sumWords
  rw [getD_map_range' _ _ _ _ (by omega), getD_map_range' _ _ _ _ hj]
  congr 1
  have hz : (ls.map fun l => l.getD (2 * j) 0).zip (ls.map fun l => l.getD (2 * j + 1) 0) = ls.map fun l => (l.getD (2 * j) 0, l.getD (2 * j + 1) 0) := by
    rw [List.zip_map']
  have hs : w.zip ls = (ls.zip w).map Prod.swap := (List.zip_swap ls w).symm
  rw [hz]
  refine Prod.ext ?_ ?_
  · simp only
    rw [List.zipWith_map_right, ← List.map_uncurry_zip_eq_zipWith, hs, List.map_map]
    congr 1
    apply List.map_congr_left
    intro p _
    exact mul_comm _ _
  · simp only
    rw [List.zipWith_map_right, ← List.map_uncurry_zip_eq_zipWith, hs, List.map_map]
    congr 1
    apply List.map_congr_left
    intro p _
    exact mul_comm _ _

/-- An accepted batch opening is an accepted opening of the weighted sum of the values, apart from the queries. -/
theorem sbVerify_single (S : CodeScheme E) (env : BfEnv B E D) (root : D) (commVars commPolys : Option ℕ) (point evals : List E) (proof : SbProof B E D) (ht : proof.trivial = [])
    (ts ts' : env.T.State) (h : sbVerify S env root commVars commPolys point evals proof ts = some ts') :
    ∃ y, innerProduct (sbCoeffs env.T evals.length ts).1 evals = some y ∧
      bfVerify S env root commVars point y ⟨proof.messages, proof.roots, proof.finalMessage, [], []⟩ (sbCoeffs env.T evals.length ts).2 = some ts' := by
  unfold sbVerify at h
  by_cases hc : commPolys = none ∨ commPolys = some evals.length
  swap
  · rw [if_neg hc] at h; cases h
  rw [if_pos hc, if_neg (by simp [ht])] at h
  by_cases hv : commVars = none ∨ commVars = some point.length
  swap
  · rw [if_neg hv] at h; cases h
  rw [if_pos hv] at h
  simp only [Option.bind_eq_bind, Option.bind_eq_some_iff] at h
  obtain ⟨r, h1, c, h2, cf, h3, u, h4, h5⟩ := h
  unfold sbQueryPhase at h4
  simp only [Option.bind_eq_bind, Option.bind_eq_some_iff] at h4
  obtain ⟨cw, g1, _, _, y, g2, fin, g3, g4⟩ := h4
  refine ⟨y, g2, ?_⟩
  unfold bfVerify
  simp only [ne_eq, not_true_eq_false, if_false]
  unfold bfVerifyFull
  rw [if_pos hv]
  simp only [Option.bind_eq_bind, Option.bind_eq_some_iff]
  refine ⟨r, h1, c, h2, cf, h3, (), ?_, h5⟩
  unfold bfQueryPhase
  simp only [Option.bind_eq_bind, Option.bind_eq_some_iff]
  exact ⟨cw, g1, (), by simp [checkQueries], fin, g3, g4⟩

theorem sbVerify_of_single (S : CodeScheme E) (env : BfEnv B E D) (root : D) (commVars : Option ℕ) (point evals : List E) (proof : BfProof B E D) (ht : proof.trivial = []) (y : E)
    (ts ts' : env.T.State) (hy : innerProduct (sbCoeffs env.T evals.length ts).1 evals = some y)
    (h : bfVerify S env root commVars point y proof (sbCoeffs env.T evals.length ts).2 = some ts') :
    sbVerify S env root commVars (some evals.length) point evals ⟨proof.messages, proof.roots, proof.finalMessage, [], []⟩ ts = some ts' := by
  unfold bfVerify at h
  simp only [ht, ne_eq, not_true_eq_false, if_false] at h
  unfold bfVerifyFull at h
  by_cases hv : commVars = none ∨ commVars = some point.length
  swap
  · rw [if_neg hv] at h; cases h
  rw [if_pos hv] at h
  simp only [Option.bind_eq_bind, Option.bind_eq_some_iff] at h
  obtain ⟨r, h1, c, h2, cf, h3, u, h4, h5⟩ := h
  unfold bfQueryPhase at h4
  simp only [Option.bind_eq_bind, Option.bind_eq_some_iff] at h4
  obtain ⟨cw, g1, _, _, fin, g3, g4⟩ := h4
  unfold sbVerify
  rw [if_pos (Or.inr rfl), if_neg (by simp), if_pos hv]
  simp only [Option.bind_eq_bind, Option.bind_eq_some_iff]
  refine ⟨r, h1, c, h2, cf, h3, (), ?_, h5⟩
  unfold sbQueryPhase
  simp only [Option.bind_eq_bind, Option.bind_eq_some_iff]
  exact ⟨cw, g1, (), by simp [sbCheckQueries], y, hy, fin, g3, g4⟩

/-- The values are used only through their number and their weighted sum. -/
theorem sbVerify_values (S : CodeScheme E) (env : BfEnv B E D) (root : D) (commVars commPolys : Option ℕ) (point evals evals' : List E) (proof : SbProof B E D) (ts : env.T.State)
    (hl : evals'.length = evals.length) (hs : innerProduct (sbCoeffs env.T evals.length ts).1 evals' = innerProduct (sbCoeffs env.T evals.length ts).1 evals) :
    sbVerify S env root commVars commPolys point evals' proof ts = sbVerify S env root commVars commPolys point evals proof ts := by
  unfold sbVerify sbQueryPhase
  simp only [hl, hs]

theorem sbCheckQueries_sound (S : CodeScheme E) (env : BfEnv B E D) (cs w : List E) (nv : ℕ) (final : List E) (roots : List D) (root : D) :
    ∀ (qs : List (ℕ × SbQuery B E D)) (ixs : List ℕ), sbCheckQueries S env cs w nv final roots root qs ixs = some () →
      ∀ (j : ℕ) (q : ℕ × SbQuery B E D) (ix : ℕ), qs[j]? = some q → ixs[j]? = some ix → q.1 = ix ∧ q.2.check S env cs w nv final roots root ix = some ()
  | [], _, _, j, q, ix, hq, _ => by simp at hq
  | _ :: _, [], _, j, q, ix, _, hi => by simp at hi
  | q0 :: qs, i0 :: ixs, h, j, q, ix, hq, hi => by
    simp only [sbCheckQueries] at h
    by_cases h0 : q0.1 = i0
    swap
    · rw [if_neg h0] at h; cases h
    rw [if_pos h0] at h
    simp only [Option.bind_eq_bind, Option.bind_eq_some_iff] at h
    obtain ⟨_, h1, h2⟩ := h
    rcases j with _ | j
    · simp only [List.getElem?_cons_zero, Option.some.injEq] at hq hi
      subst hq hi
      exact ⟨h0, by rw [← h0]; exact h1⟩
    · simp only [List.getElem?_cons_succ] at hq hi
      exact sbCheckQueries_sound S env cs w nv final roots root qs ixs h2 j q ix hq hi

theorem sbGetPair_spec (H : MerkleHasher B E D) (ls : List (List E)) (hne : ls ≠ []) (k x : ℕ) (hl : ∀ l ∈ ls, l.length = 2 ^ (k + 1)) (hx : x < 2 ^ (k + 1))
    (tree : MerkleTree B E D) (root : D) (ht : MerkleTree.fromBatchLeaves H (ls.map fun l => .ext l) = some tree) (hroot : tree.root = some root) (bh : List (List E)) (nv : ℕ)
    (trees : List (MerkleTree B E D)) (qs : List (CodeQuery B E D)) (hqs : bfGetOracle trees (x / 2) = some qs) :
    ∃ path, sbGetQuery ⟨tree, bh, nv⟩ trees x = some (x, ⟨qs, .ext ((ls.map fun l => l.getD (2 * (x / 2)) 0).zip (ls.map fun l => l.getD (2 * (x / 2) + 1) 0)), 2 * (x / 2), path⟩) ∧
      SbQuery.checkPath H ⟨qs, .ext ((ls.map fun l => l.getD (2 * (x / 2)) 0).zip (ls.map fun l => l.getD (2 * (x / 2) + 1) 0)), 2 * (x / 2), path⟩ root = some () := by
  have hp : 2 ^ (k + 1) = 2 * 2 ^ k := by rw [pow_succ]; ring
  have hx2 : x / 2 < 2 ^ k := by omega
  obtain ⟨t, root', path, h1, h2, h3, h4, h5⟩ := Props.C42_batch_ext H ls 0 k (2 * (x / 2)) hne hl (by omega)
  rw [ht] at h1
  obtain rfl := Option.some.inj h1
  rw [hroot] at h2
  obtain rfl := Option.some.inj h2
  rw [show 2 * (x / 2) / 2 = x / 2 by omega] at h5
  refine ⟨path, ?_, ?_⟩
  · unfold sbGetQuery
    dsimp only
    rw [or_one, fromBatchLeaves_leaves ht, show 2 * (x / 2) + 1 - 1 = 2 * (x / 2) by omega, Nat.shiftRight_one, hqs,
      mapM_indexExt ls _ (fun l h => by rw [hl l h]; omega), mapM_indexExt ls _ (fun l h => by rw [hl l h]; omega), h3]
    rfl
  · unfold SbQuery.checkPath
    simp only
    rw [show ((ls.map fun l => l.getD (2 * (x / 2)) 0).zip (ls.map fun l => l.getD (2 * (x / 2) + 1) 0)).map (fun x => x.1) = ls.map fun l => l.getD (2 * (x / 2)) 0 by
        rw [List.zip_map', List.map_map]; rfl,
      show ((ls.map fun l => l.getD (2 * (x / 2)) 0).zip (ls.map fun l => l.getD (2 * (x / 2) + 1) 0)).map (fun x => x.2) = ls.map fun l => l.getD (2 * (x / 2) + 1) 0 by
        rw [List.zip_map', List.map_map]; rfl, h5]
    rfl

theorem sb_open_full (S : CodeScheme E) (word : ℕ → List E → List E) (good : GoodCode S word) (linear : LinearCode S word) (env : BfEnv B E D) (hb : 0 < S.basecodeLog)
    (n : ℕ) (hn : S.basecodeLog < n) (hmax : n ≤ S.maxLog) (fs : List (List E)) (hne : fs ≠ []) (hfs : ∀ f ∈ fs, f.length = 2 ^ n) (point : List E) (hp : point.length = n) (ts : env.T.State) :
    ∃ comm root proof ts', sbCommit S env.hasher (fs.map fun f => ⟨n, f⟩) = some comm ∧ comm.tree.root = some root ∧
      sbOpen S env (fs.map fun f => ⟨n, f⟩) comm point (fs.map fun f => mle f point) ts = some (proof, ts') ∧
      sbVerify S env root (some n) (some fs.length) point (fs.map fun f => mle f point) proof ts = some ts' ∧
      proof.queries.length = S.numQueries ∧ proof.messages.length = n - S.basecodeLog := by
  obtain ⟨f0, fr, hf0⟩ : ∃ f0 fr, fs = f0 :: fr := by
    rcases fs with _ | ⟨a, l⟩
    · exact absurd rfl hne
    · exact ⟨a, l, rfl⟩
  obtain ⟨r, rfl⟩ : ∃ r, n = S.basecodeLog + r + 1 := ⟨n - S.basecodeLog - 1, by omega⟩
  obtain ⟨n, hne'⟩ : ∃ n, n = S.basecodeLog + r + 1 := ⟨_, rfl⟩
  have hsh : S.basecodeLog + r + 1 = n := hne'.symm
  rw [hsh] at hfs hp hn hmax ⊢
  obtain ⟨w, hw⟩ : ∃ w, w = (sbCoeffs env.T fs.length ts).1 := ⟨_, rfl⟩
  obtain ⟨ts0, hts0⟩ : ∃ t, t = (sbCoeffs env.T fs.length ts).2 := ⟨_, rfl⟩
  have hwl : w.length = fs.length := by rw [hw, sbCoeffs_length]
  obtain ⟨f, hfd⟩ : ∃ f, f = sumWords (2 ^ n) w fs := ⟨_, rfl⟩
  have hf : f.length = 2 ^ n := by rw [hfd]; simp [sumWords]
  obtain ⟨words, hwords⟩ : ∃ ws, ws = fs.map (wordOf word n) := ⟨_, rfl⟩
  have hwordsl : ∀ l ∈ words, l.length = 2 ^ (n + S.rateLog) := by
    intro l hl
    rw [hwords] at hl
    obtain ⟨g, hg, rfl⟩ := List.mem_map.mp hl
    exact wordOf_length S word good hb n (by omega) (by omega) g (hfs g hg)
  have hwne : words ≠ [] := by rw [hwords, hf0]; simp
  have hwwl : w.length = words.length := by rw [hwl, hwords]; simp
  obtain ⟨O, hO⟩ : ∃ O, O = word n (interpC f) := ⟨_, rfl⟩
  have hOs : O = sumWords (2 ^ (n + S.rateLog)) w words := by
    rw [hO, hfd, hwords]
    exact wordOf_sum S word linear hb n (by omega) (by omega) good w fs hfs
  have hOl : O.length = 2 ^ (n + S.rateLog) := by rw [hOs]; simp [sumWords]
  obtain ⟨tree, root, _, t1, t2, _, _⟩ := Props.C42_batch_ext env.hasher words 0 (n + S.rateLog - 1) 0 hwne
    (by intro l hl; rw [hwordsl l hl]; congr 1; omega) (Nat.two_pow_pos _)
  have hleaves := fromBatchLeaves_leaves t1
  have hcommit : sbCommit S env.hasher (fs.map fun f => ⟨n, f⟩) = some ⟨tree, fs.map (bitrev 0 n), n⟩ := by
    unfold sbCommit
    have hhead : (fs.map fun f => (⟨n, f⟩ : Mle E)).head? = some ⟨n, f0⟩ := by rw [hf0]; rfl
    rw [hhead]
    simp only [Option.bind_eq_bind, Option.bind_some]
    rw [if_pos (by simp), if_neg (by omega), if_neg (by omega)]
    have hm : ((fs.map fun f => (⟨n, f⟩ : Mle E)).mapM fun p => bhEvalsCodeword S p.evals) = some (fs.map fun f => (bitrev 0 n f, wordOf word n f)) := by
      rw [mapM_some' _ (fun p : Mle E => (bitrev 0 n p.evals, wordOf word n p.evals))]
      · rw [List.map_map]; rfl
      · intro p hp'
        obtain ⟨g, hg, rfl⟩ := List.mem_map.mp hp'
        exact bhEvalsCodeword_eq S word good hb n hn (by omega) g (hfs g hg)
    rw [hm]
    simp only [Option.bind_some, List.map_map]
    have : (fs.map ((fun x : List E × List E => (FieldType.ext x.2 : FieldType B E)) ∘ fun f => (bitrev 0 n f, wordOf word n f))) = words.map fun l => FieldType.ext l := by
      rw [hwords, List.map_map]; rfl
    rw [this, t1]
    rfl
  have hbe : buildEq point = (List.range (2 ^ n)).map fun i => 1 * chi point i := by
    unfold buildEq
    rw [buildEqSeq_spec point _ (by simp), hp]
    simp
  obtain ⟨g, hg⟩ : ∃ g, g = (List.range (2 ^ n)).map fun i => 1 * chi point i := ⟨_, rfl⟩
  rw [← hg] at hbe
  have hgl : g.length = 2 ^ n := by rw [hg]; simp
  obtain ⟨v, v1, v2⟩ := level_interp (S.basecodeLog + r) f
  obtain ⟨gw, w1, w2⟩ := level_interp (S.basecodeLog + r) g
  rw [hsh] at v1 w1
  obtain ⟨last, l1, _, _⟩ := level_message (S.basecodeLog + r) f g v gw (by rw [hf, hne']) (by rw [hgl, hne']) v2 w2
  obtain ⟨cp, cs, ts', c1, c2, c3, c4, c5, c6, c7, c8⟩ := bfCommitLoop_spec S word good env hb r f g v gw last ts0 (by omega) (by rw [hf, hne']) (by rw [hgl, hne']) v2 w2 l1
  rw [hsh, ← hO] at c1 c8
  obtain ⟨R, hR⟩ : ∃ R, R = bfSampleQueries env.T S.numQueries cp.ts := ⟨_, rfl⟩
  obtain ⟨w0, wr, hw0⟩ : ∃ w0 wr, words = w0 :: wr := by
    rcases words with _ | ⟨a, l⟩
    · exact absurd rfl hwne
    · exact ⟨a, l, rfl⟩
  have hfirst : tree.leaves.head? = some (.ext w0) := by rw [hleaves, hw0]; rfl
  have hfirstlen : (FieldType.ext w0 : FieldType B E).len = 2 ^ (n + S.rateLog) := hwordsl w0 (by rw [hw0]; simp)
  have hphase : sbCommitPhase S env point w ⟨tree, fs.map (bitrev 0 n), n⟩ n (r + 1) ts0 = some cp := by
    unfold sbCommitPhase
    rw [if_pos ⟨hp, by simp [hwl]⟩]
    simp only [hfirst, Option.bind_eq_bind, Option.bind_some, hfirstlen]
    rw [hleaves, sbWeightedSum_eq w _ words hwordsl, sbWeightedSum_eq w (2 ^ n) (fs.map (bitrev 0 n)) (by
      intro l hl
      obtain ⟨g, _, rfl⟩ := List.mem_map.mp hl
      exact bitrev_length 0 n g), ← hOs, sumWords_bitrev, ← hfd, hbe, reverseIndexBits_eq 0 n g hgl]
    simp only [Option.bind_some, bfFirstRound, Option.bind_eq_bind]
    rw [v1, w1]
    simp only [Option.bind_some, l1, c1]
  have hquery : ∀ x, x < O.length → ∃ q, sbGetQuery (⟨tree, fs.map (bitrev 0 n), n⟩ : SbCommitted B E D) cp.trees x = some (x, q) ∧
      ∀ final, final = word S.basecodeLog (interpC (fixHigh f cs)) → q.check S env cs w n final cp.roots root x = some () := by
    intro x hx
    rw [hOl] at hx
    obtain ⟨qs, s1, s2, s3⟩ := chain_queries S word good env n (by omega) _ c8 0 x (by rw [hOl, Nat.sub_zero]) (by rw [hOl]; exact hx) (by omega)
    obtain ⟨path, q1, q2⟩ := sbGetPair_spec env.hasher words hwne (n + S.rateLog - 1) x (by intro l hl; rw [hwordsl l hl]; congr 1; omega)
      (by rw [show n + S.rateLog - 1 + 1 = n + S.rateLog by omega]; exact hx) tree root t1 t2 (fs.map (bitrev 0 n)) n cp.trees qs s1
    refine ⟨_, q1, ?_⟩
    intro final hfin
    subst hfin
    unfold SbQuery.check
    have hxx : 2 * (x / 2) + 1 < 2 ^ (n + S.rateLog) := by
      obtain ⟨m, hm⟩ : ∃ m, n + S.rateLog = m + 1 := ⟨n + S.rateLog - 1, by omega⟩
      rw [hm] at hx ⊢
      have : 2 ^ (m + 1) = 2 * 2 ^ m := by rw [pow_succ]; ring
      omega
    simp only [s2, q2, Option.bind_eq_bind, Option.bind_some]
    rw [batchPair_eq env.embed w words hwwl _ _ hxx, ← hOs]
    simp only [Option.bind_some, s3]
  have hqs : ∀ xs : List E, ∃ qs, (xs.mapM fun x => sbGetQuery (⟨tree, fs.map (bitrev 0 n), n⟩ : SbCommitted B E D) cp.trees (env.toUsize x % 2 ^ (n + S.rateLog))) = some qs ∧
      qs.length = xs.length ∧
      ∀ final, final = word S.basecodeLog (interpC (fixHigh f cs)) →
        sbCheckQueries S env cs w n final cp.roots root qs (xs.map fun x => env.toUsize x % 2 ^ (n + S.rateLog)) = some () := by
    intro xs
    induction xs with
    | nil => exact ⟨[], rfl, rfl, fun _ _ => rfl⟩
    | cons x xs ih =>
      obtain ⟨qs, h1, h2, h3⟩ := ih
      obtain ⟨q, q1, q2⟩ := hquery (env.toUsize x % 2 ^ (n + S.rateLog)) (by rw [hOl]; exact Nat.mod_lt _ (Nat.two_pow_pos _))
      refine ⟨(env.toUsize x % 2 ^ (n + S.rateLog), q) :: qs, ?_, by simp [h2], ?_⟩
      · rw [List.mapM_cons, q1, h1]; rfl
      · intro final hfin
        simp only [List.map_cons, sbCheckQueries]
        rw [if_pos trivial, q2 final hfin, h3 final hfin]
        rfl
  obtain ⟨qs, qs1, qs2, qs3⟩ := hqs R.1
  have hfl : (fixHigh f cs).length = 2 ^ S.basecodeLog := by
    rw [fixHigh_length f cs _ hf (by omega)]; congr 1; omega
  have hopen : sbOpen S env (fs.map fun f => ⟨n, f⟩) ⟨tree, fs.map (bitrev 0 n), n⟩ point (fs.map fun f => mle f point) ts = some (⟨cp.messages, cp.roots, cp.finalMessage, qs, []⟩, R.2) := by
    unfold sbOpen
    have hhead : (fs.map fun f => (⟨n, f⟩ : Mle E)).head? = some ⟨n, f0⟩ := by rw [hf0]; rfl
    rw [hhead]
    simp only [Option.bind_eq_bind, Option.bind_some]
    rw [if_neg (by show ¬ n ≤ _; omega), if_pos (by simp)]
    unfold checkedSub
    rw [if_pos (by omega), show n - S.basecodeLog = r + 1 by omega]
    simp only [Option.bind_some, List.length_map, ← hw, ← hts0]
    rw [hphase]
    simp only [Option.bind_some, hfirst, hfirstlen, ← hR, qs1]
  have hRl : R.1.length = S.numQueries := by
    rw [hR]
    generalize cp.ts = t
    generalize S.numQueries = m
    induction m generalizing t with
    | zero => rfl
    | succ m ih => simp [bfSampleQueries, ih]
  refine ⟨⟨tree, fs.map (bitrev 0 n), n⟩, root, ⟨cp.messages, cp.roots, cp.finalMessage, qs, []⟩, R.2, hcommit, t2, hopen, ?_, ?_, ?_⟩
  · unfold sbVerify
    rw [if_pos (Or.inr (by simp)), if_neg (by simp), if_pos (Or.inr (by rw [hp]))]
    unfold checkedSub
    rw [if_pos (by omega), hp, show n - S.basecodeLog = r + 1 by omega]
    simp only [Option.bind_eq_bind, Option.bind_some, List.length_map, ← hw, ← hts0]
    rw [c5]
    simp only [Option.bind_some, c2, ← c6, ← hR, show n - (r + 1) = S.basecodeLog by omega]
    have hdl : (point.drop S.basecodeLog).length = r + 1 := by rw [List.length_drop]; omega
    rw [eqXYEval_eq _ _ (by intro h; rw [h] at hdl; simp at hdl) (by rw [hdl, List.length_reverse, c2])]
    simp only [Option.bind_some]
    unfold sbQueryPhase bfFinalCodeword
    simp only
    rw [c4, bfMessage_eq S S.basecodeLog hb _ hfl]
    obtain ⟨sw, s1, s2, s3⟩ := good.small (interpC (fixHigh f cs)) (interpC_spec _ hb _ hfl).2.1
    simp only [Option.bind_eq_bind, Option.bind_some, s1]
    rw [reverseIndexBits_eq 0 _ sw s2, s3]
    simp only [Option.bind_some]
    rw [qs3 _ rfl]
    simp only [Option.bind_some]
    have htake : (point.take S.basecodeLog).length = S.basecodeLog := by rw [List.length_take]; omega
    have hpartial : (buildEq (point.take S.basecodeLog)).map (· * eqPoly (point.drop S.basecodeLog) cs.reverse) = fixHigh g cs := by
      have := fixHigh_chi (point.take S.basecodeLog) cs (point.drop S.basecodeLog) 1 (by rw [hdl, c2])
      rw [List.take_append_drop, htake, c2, ← add_assoc, hsh, ← hg] at this
      rw [this]
      unfold buildEq
      rw [buildEqSeq_spec _ _ (by simp), htake, List.map_map]
      apply List.map_congr_left
      intro i _
      simp only [Function.comp]
      ring
    rw [hpartial]
    have hgfl : (fixHigh g cs).length = 2 ^ S.basecodeLog := by
      rw [fixHigh_length g cs n hgl (by omega)]; congr 1; omega
    have hinner : innerProduct (fixHigh f cs) (fixHigh g cs) = some (dotN (2 ^ S.basecodeLog) (fixHigh f cs) (fixHigh g cs)) := by
      unfold innerProduct
      rw [if_pos (by rw [hfl, hgfl])]
      congr 1
      have : List.zipWith (· * ·) (fixHigh f cs) (fixHigh g cs)
          = (List.range (2 ^ S.basecodeLog)).map fun i => (fixHigh f cs).getD i 0 * (fixHigh g cs).getD i 0 := by
        apply list_ext_getD 0
        · simp [hfl, hgfl]
        · intro i hi
          simp only [List.length_zipWith, hfl, hgfl, min_self] at hi
          rw [zipWith_getD _ _ _ _ (by omega) (by omega), getD_map_range' _ _ _ _ hi]
      rw [this, sum_map_range]
      rfl
    have hclaim : dotN (2 ^ (S.basecodeLog + r + 1)) f g = mle f point := by
      unfold dotN mle
      rw [hp, hsh]
      refine Finset.sum_congr rfl fun i hi => ?_
      rw [hg, getD_map_range' _ _ _ _ (Finset.mem_range.mp hi), one_mul]
    have hclaim2 : innerProduct w (fs.map fun f => mle f point) = some (mle f point) := by
      rw [innerProduct_zip _ _ (by simp [hwl]), hfd, mle_sumWords n w fs point hp, List.zip_map_left, List.map_map]
      rfl
    rw [hclaim2, hinner]
    simp only [Option.bind_some]
    rw [hclaim] at c7
    rw [c7]
    rfl
  · rw [qs2, hRl]
  · rw [c3]; omega

end Lemmas
