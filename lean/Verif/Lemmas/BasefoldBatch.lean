import Verif.Lemmas.ClassicSumcheck

/-! Opening many polynomials at once: the honest prover's oracles, messages and queries. -/

open Spec Model

namespace Lemmas

/-! ### Linear combinations of tables and codewords -/

section Linear

variable {F : Type} [Field F]

/-- `x + c·y`, entry by entry. -/
def lin (x y : List F) (c : F) : List F := List.zipWith (fun r a => r + a * c) x y

theorem lin_length (x y : List F) (c : F) (n : ℕ) (hx : x.length = n) (hy : y.length = n) : (lin x y c).length = n := by
  simp [lin, hx, hy]

theorem lin_getD (x y : List F) (c : F) (n : ℕ) (hx : x.length = n) (hy : y.length = n) (i : ℕ) (hi : i < n) :
    (lin x y c).getD i 0 = x.getD i 0 + y.getD i 0 * c := by
  unfold lin
  rw [zipWith_getD _ _ _ _ (by omega) (by omega)]

/-- A code whose codewords depend linearly on the coefficients. -/
structure LinearCode (S : CodeScheme F) (word : ℕ → List F → List F) : Prop where
  lin : ∀ k x y c, S.basecodeLog ≤ k → k ≤ S.maxLog → x.length = 2 ^ k → y.length = 2 ^ k → word k (lin x y c) = lin (word k x) (word k y) c
  zero : ∀ k, S.basecodeLog ≤ k → k ≤ S.maxLog → word k (List.replicate (2 ^ k) 0) = List.replicate (2 ^ (k + S.rateLog)) 0

theorem getD_replicate_zero (n i : ℕ) : (List.replicate n (0 : F)).getD i 0 = 0 := by
  rw [List.getD_eq_getElem?_getD, List.getElem?_replicate]
  split <;> rfl

theorem bitrev_lin (k : ℕ) (x y : List F) (c : F) (hx : x.length = 2 ^ k) (hy : y.length = 2 ^ k) :
    bitrev 0 k (lin x y c) = lin (bitrev 0 k x) (bitrev 0 k y) c := by
  apply list_ext_getD 0
  · rw [bitrev_length, lin_length _ _ _ (2 ^ k) (bitrev_length _ _ _) (bitrev_length _ _ _)]
  · intro i hi
    rw [bitrev_length] at hi
    rw [bitrev_getD _ _ _ _ hi, lin_getD _ _ _ _ hx hy _ (revBits_lt _ _), lin_getD _ _ _ _ (bitrev_length _ _ _) (bitrev_length _ _ _) _ hi,
      bitrev_getD _ _ _ _ hi, bitrev_getD _ _ _ _ hi]

theorem polyEval_lin (x y : List F) (c z : F) (h : x.length = y.length) : polyEval (lin x y c) z = polyEval x z + polyEval y z * c := by
  unfold polyEval
  rw [lin_length x y c x.length rfl h.symm, ← h, Finset.sum_mul, ← Finset.sum_add_distrib]
  refine Finset.sum_congr rfl fun i hi => ?_
  rw [lin_getD x y c x.length rfl h.symm i (Finset.mem_range.mp hi)]
  ring

theorem rsWord_linear (S : CodeScheme F) (rate : ℕ) (hr : S.rateLog = rate) (gamma : F) (ω : ℕ → F) (full : ℕ) :
    LinearCode S (rsWord rate gamma ω full) := by
  refine ⟨?_, ?_⟩
  · intro k x y c _ _ hx hy
    apply list_ext_getD 0
    · rw [rsWord_length, lin_length _ _ _ _ (rsWord_length ..) (rsWord_length ..)]
    · intro i hi
      rw [rsWord_length] at hi
      rw [lin_getD _ _ _ _ (rsWord_length ..) (rsWord_length ..) _ hi, rsWord_getD _ _ _ _ _ _ _ hi, rsWord_getD _ _ _ _ _ _ _ hi, rsWord_getD _ _ _ _ _ _ _ hi,
        bitrev_lin _ _ _ _ hx hy, polyEval_lin _ _ _ _ (by rw [bitrev_length, bitrev_length])]
  · intro k _ _
    rw [hr]
    apply list_ext_getD 0
    · rw [rsWord_length]; simp
    · intro i hi
      rw [rsWord_length] at hi
      rw [rsWord_getD _ _ _ _ _ _ _ hi, getD_replicate_zero]
      unfold polyEval
      apply Finset.sum_eq_zero
      intro j hj
      rw [bitrev_length] at hj
      rw [bitrev_getD _ _ _ _ (Finset.mem_range.mp hj), getD_replicate_zero, zero_mul]

theorem fcode_zero (t : ℕ → ℕ → F) (b rate : ℕ) : ∀ (j p : ℕ), fcode t b rate j (fun _ => 0) p = 0 := by
  intro j
  induction j with
  | zero => intro p; simp [fcode]
  | succ j ih => intro p; simp [fcode, ih]

theorem basecodeWord_linear (S : CodeScheme F) (t : ℕ → ℕ → F) (b rate : ℕ) (hb : S.basecodeLog = b) (hr : S.rateLog = rate) :
    LinearCode S (basecodeWord t b rate) := by
  have hlen : ∀ k x, (basecodeWord t b rate k x).length = 2 ^ (k + rate) := fun k x => bitrev_length _ _ _
  refine ⟨?_, ?_⟩
  · intro k x y c hk _ hx hy
    apply list_ext_getD 0
    · rw [hlen, lin_length _ _ _ _ (hlen _ _) (hlen _ _)]
    · intro i hi
      rw [hlen] at hi
      rw [lin_getD _ _ _ _ (hlen _ _) (hlen _ _) _ hi, basecodeWord_getD _ _ _ _ _ _ hi, basecodeWord_getD _ _ _ _ _ _ hi, basecodeWord_getD _ _ _ _ _ _ hi,
        ← fcode_linear]
      apply fcode_congr
      intro j hj
      exact lin_getD _ _ _ _ hx hy _ (by rw [show b + (k - b) = k by omega] at hj; exact hj)
  · intro k _ _
    rw [hr]
    apply list_ext_getD 0
    · rw [hlen]; simp
    · intro i hi
      rw [hlen] at hi
      rw [basecodeWord_getD _ _ _ _ _ _ hi, getD_replicate_zero]
      have : (fun i => (List.replicate (2 ^ k) (0 : F)).getD i 0) = fun _ => 0 := by
        funext i; exact getD_replicate_zero _ _
      rw [this, fcode_zero]

theorem coeffForm_lin (n : ℕ) (x y : List F) (c : F) (hx : x.length = 2 ^ n) (hy : y.length = 2 ^ n) (p : List F) (hp : p.length = n) :
    coeffForm (lin x y c) p = coeffForm x p + coeffForm y p * c := by
  unfold coeffForm
  rw [hp, Finset.sum_mul, ← Finset.sum_add_distrib]
  refine Finset.sum_congr rfl fun i hi => ?_
  rw [lin_getD x y c _ hx hy i (Finset.mem_range.mp hi)]
  ring

theorem mle_lin (n : ℕ) (x y : List F) (c : F) (hx : x.length = 2 ^ n) (hy : y.length = 2 ^ n) (p : List F) (hp : p.length = n) :
    mle (lin x y c) p = mle x p + mle y p * c := by
  unfold mle
  rw [hp, Finset.sum_mul, ← Finset.sum_add_distrib]
  refine Finset.sum_congr rfl fun i hi => ?_
  rw [lin_getD x y c _ hx hy i (Finset.mem_range.mp hi)]
  ring

theorem interpC_lin (n : ℕ) (hn : 0 < n) (x y : List F) (c : F) (hx : x.length = 2 ^ n) (hy : y.length = 2 ^ n) :
    interpC (lin x y c) = lin (interpC x) (interpC y) c := by
  obtain ⟨_, a2, a3⟩ := interpC_spec n hn x hx
  obtain ⟨_, b2, b3⟩ := interpC_spec n hn y hy
  obtain ⟨_, c2, c3⟩ := interpC_spec n hn (lin x y c) (lin_length _ _ _ _ hx hy)
  apply coeffForm_unique n _ _ c2 (lin_length _ _ _ _ a2 b2)
  intro p hp
  rw [c3 p hp, mle_lin n x y c hx hy p hp, coeffForm_lin n _ _ c a2 b2 p hp, a3 p hp, b3 p hp]

theorem interpC_zero (n : ℕ) (hn : 0 < n) : interpC (List.replicate (2 ^ n) (0 : F)) = List.replicate (2 ^ n) 0 := by
  obtain ⟨_, a2, a3⟩ := interpC_spec n hn (List.replicate (2 ^ n) (0 : F)) (by simp)
  apply coeffForm_unique n _ _ a2 (by simp)
  intro p hp
  rw [a3 p hp]
  unfold mle coeffForm
  rw [Finset.sum_eq_zero, Finset.sum_eq_zero]
  · intro i _; rw [getD_replicate_zero, zero_mul]
  · intro i _; rw [getD_replicate_zero, zero_mul]

/-! ### The tables behind the merged oracles -/

/-- A committed polynomial: number of variables, values, coefficient. -/
abbrev Item (F : Type) := ℕ × List F × F

/-- The tables of `k` variables added to `acc`. -/
def tabMerge (L : List (Item F)) (k : ℕ) (acc : List F) : List F := (L.filter fun t => t.1 = k).foldl (fun r t => lin r t.2.1 t.2.2) acc

/-- The part of the batched polynomial not yet merged at level `k`. -/
def lowSum (L : List (Item F)) (k j : ℕ) : F := ((L.filter fun t => t.1 < k).map fun t => t.2.1.getD (j % 2 ^ t.1) 0 * t.2.2).sum

theorem foldl_lin_spec : ∀ (l : List (List F × F)) (n : ℕ) (acc : List F), acc.length = n → (∀ t ∈ l, t.1.length = n) →
    (l.foldl (fun r t => lin r t.1 t.2) acc).length = n ∧
      ∀ i, i < n → (l.foldl (fun r t => lin r t.1 t.2) acc).getD i 0 = acc.getD i 0 + (l.map fun t => t.1.getD i 0 * t.2).sum := by
  intro l
  induction l with
  | nil => intro n acc h _; exact ⟨h, by intro i _; simp⟩
  | cons t l ih =>
    intro n acc h hl
    have ht := hl t (by simp)
    obtain ⟨i1, i2⟩ := ih n (lin acc t.1 t.2) (lin_length _ _ _ _ h ht) (fun t' h' => hl t' (by simp [h']))
    refine ⟨i1, ?_⟩
    intro i hi
    rw [List.foldl_cons, i2 i hi, lin_getD _ _ _ _ h ht _ hi, List.map_cons, List.sum_cons, add_assoc]

theorem tabMerge_spec (L : List (Item F)) (k : ℕ) (hL : ∀ t ∈ L, t.2.1.length = 2 ^ t.1) (acc : List F) (h : acc.length = 2 ^ k) :
    (tabMerge L k acc).length = 2 ^ k ∧ ∀ i, i < 2 ^ k → (tabMerge L k acc).getD i 0
      = acc.getD i 0 + ((L.filter fun t => t.1 = k).map fun t => t.2.1.getD i 0 * t.2.2).sum := by
  have hfl : (L.filter fun t => t.1 = k).foldl (fun r t => lin r t.2.1 t.2.2) acc
      = ((L.filter fun t => t.1 = k).map fun t => (t.2.1, t.2.2)).foldl (fun r t => lin r t.1 t.2) acc := by
    rw [List.foldl_map]
  obtain ⟨h1, h2⟩ := foldl_lin_spec ((L.filter fun t => t.1 = k).map fun t => (t.2.1, t.2.2)) (2 ^ k) acc h (by
    intro t ht
    obtain ⟨t0, ht0, rfl⟩ := List.mem_map.mp ht
    obtain ⟨hm, hk⟩ := List.mem_filter.mp ht0
    simp only [decide_eq_true_eq] at hk
    simp only
    rw [hL t0 hm, hk])
  unfold tabMerge
  rw [hfl]
  refine ⟨h1, ?_⟩
  intro i hi
  rw [h2 i hi, List.map_map]
  rfl

theorem lowSum_succ (L : List (Item F)) (k j : ℕ) (hj : j < 2 ^ k) :
    lowSum L (k + 1) j = ((L.filter fun t => t.1 = k).map fun t => t.2.1.getD j 0 * t.2.2).sum + lowSum L k j := by
  unfold lowSum
  induction L with
  | nil => simp
  | cons t L ih =>
    rcases lt_trichotomy t.1 k with h | h | h
    · rw [List.filter_cons_of_pos (by simp; omega), List.filter_cons_of_neg (by simp; omega), List.filter_cons_of_pos (by simp; omega)]
      simp only [List.map_cons, List.sum_cons]
      rw [ih]; ring
    · rw [List.filter_cons_of_pos (by simp; omega), List.filter_cons_of_pos (by simp; omega), List.filter_cons_of_neg (by simp; omega)]
      simp only [List.map_cons, List.sum_cons]
      rw [ih, h, Nat.mod_eq_of_lt hj]; ring
    · rw [List.filter_cons_of_neg (by simp; omega), List.filter_cons_of_neg (by simp; omega), List.filter_cons_of_neg (by simp; omega), ih]

theorem lowSum_periodic (L : List (Item F)) (k j : ℕ) : lowSum L (k + 1) (j + 2 ^ k) = lowSum L (k + 1) j := by
  unfold lowSum
  congr 1
  apply List.map_congr_left
  intro t ht
  have h := (List.mem_filter.mp ht).2
  simp only [decide_eq_true_eq] at h
  have : (j + 2 ^ k) % 2 ^ t.1 = j % 2 ^ t.1 := by
    obtain ⟨d, hd⟩ := pow_dvd_pow 2 (show t.1 ≤ k by omega)
    rw [hd, Nat.add_mul_mod_self_left]
  rw [this]

/-- One round of folding keeps the batched table and the merged tables in step. -/
theorem merged_step (L : List (Item F)) (hL : ∀ t ∈ L, t.2.1.length = 2 ^ t.1) (k : ℕ) (c : F) (G A : List F) (hG : G.length = 2 ^ (k + 1))
    (hA : A.length = 2 ^ (k + 1)) (h : ∀ j, j < 2 ^ (k + 1) → G.getD j 0 = A.getD j 0 + lowSum L (k + 1) j) :
    ∀ j, j < 2 ^ k → (highFix c (2 ^ k) G).getD j 0 = (tabMerge L k (highFix c (2 ^ k) A)).getD j 0 + lowSum L k j := by
  have hp : 2 ^ (k + 1) = 2 * 2 ^ k := by rw [pow_succ]; ring
  intro j hj
  rw [(tabMerge_spec L k hL _ (highFix_length _ _ _ (by omega))).2 j hj, highFix_getD _ _ _ (by omega) _ hj, highFix_getD _ _ _ (by omega) _ hj,
    h j (by omega), h (2 ^ k + j) (by omega), add_comm (2 ^ k) j, lowSum_periodic, lowSum_succ L k j hj]
  ring

theorem lowSum_none (L : List (Item F)) (k j : ℕ) (h : ∀ t ∈ L, k ≤ t.1) : lowSum L k j = 0 := by
  unfold lowSum
  rw [List.filter_eq_nil_iff.mpr]
  · rfl
  · intro t ht
    have := h t ht
    simp; omega

end Linear

variable {B E D : Type} [Field E] [DecidableEq E] [DecidableEq D]

/-- The codeword of a table. -/
def wordOf (word : ℕ → List E → List E) (k : ℕ) (f : List E) : List E := word k (interpC f)

/-- The codewords of the committed polynomials with their coefficients. -/
def itemWords (word : ℕ → List E → List E) (L : List (Item E)) : List (List E × E) := L.map fun t => (wordOf word t.1 t.2.1, t.2.2)

/-- The committed polynomials lie between the base code and the largest size. -/
structure ItemsOk (S : CodeScheme E) (L : List (Item E)) : Prop where
  len : ∀ t ∈ L, t.2.1.length = 2 ^ t.1
  low : ∀ t ∈ L, S.basecodeLog < t.1
  high : ∀ t ∈ L, t.1 ≤ S.maxLog

theorem wordOf_length (S : CodeScheme E) (word : ℕ → List E → List E) (good : GoodCode S word) (hb : 0 < S.basecodeLog) (k : ℕ) (h1 : S.basecodeLog ≤ k)
    (h2 : k ≤ S.maxLog) (f : List E) (hf : f.length = 2 ^ k) : (wordOf word k f).length = 2 ^ (k + S.rateLog) :=
  good.length k _ h1 h2 (interpC_spec k (by omega) f hf).2.1

theorem itemWords_filter (S : CodeScheme E) (word : ℕ → List E → List E) (good : GoodCode S word) (hb : 0 < S.basecodeLog) (L : List (Item E))
    (hL : ItemsOk S L) (k : ℕ) :
    ((itemWords word L).filter fun w => w.1.length = 2 ^ (k + S.rateLog)) = (L.filter fun t => t.1 = k).map fun t => (wordOf word t.1 t.2.1, t.2.2) := by
  unfold itemWords
  rw [List.filter_map]
  congr 1
  apply List.filter_congr
  intro t ht
  simp only [Function.comp]
  rw [wordOf_length S word good hb t.1 (le_of_lt (hL.low t ht)) (hL.high t ht) _ (hL.len t ht)]
  congr 1
  rw [Nat.pow_right_injective (le_refl 2) |>.eq_iff]
  exact propext ⟨fun h => by omega, fun h => by omega⟩

theorem mergeOracle_word (S : CodeScheme E) (word : ℕ → List E → List E) (good : GoodCode S word) (linear : LinearCode S word) (hb : 0 < S.basecodeLog)
    (L : List (Item E)) (hL : ItemsOk S L) (k : ℕ) (h1 : S.basecodeLog ≤ k) (h2 : k ≤ S.maxLog) (A : List E) (hA : A.length = 2 ^ k) :
    mergeOracle (itemWords word L) (wordOf word k A) = wordOf word k (tabMerge L k A) := by
  unfold mergeOracle
  rw [wordOf_length S word good hb k h1 h2 A hA, itemWords_filter S word good hb L hL k, List.foldl_map]
  unfold tabMerge
  have key : ∀ (l : List (Item E)) (A : List E), A.length = 2 ^ k → (∀ t ∈ l, t.1 = k ∧ t.2.1.length = 2 ^ k) →
      l.foldl (fun r t => List.zipWith (fun r a => r + a * t.2.2) r (wordOf word t.1 t.2.1)) (wordOf word k A)
        = wordOf word k (l.foldl (fun r t => lin r t.2.1 t.2.2) A) := by
    intro l
    induction l with
    | nil => intro A _ _; rfl
    | cons t l ih =>
      intro A hA hl
      obtain ⟨e1, e2⟩ := hl t (by simp)
      rw [List.foldl_cons, List.foldl_cons, ← ih (lin A t.2.1 t.2.2) (lin_length _ _ _ _ hA e2) (fun t' h' => hl t' (by simp [h']))]
      congr 1
      unfold wordOf
      rw [interpC_lin k (by omega) _ _ _ hA e2, linear.lin k _ _ _ h1 h2 (interpC_spec k (by omega) _ hA).2.1 (interpC_spec k (by omega) _ e2).2.1, e1]
      rfl
  apply key _ _ hA
  intro t ht
  obtain ⟨hm, hk⟩ := List.mem_filter.mp ht
  simp only [decide_eq_true_eq] at hk
  exact ⟨hk, by rw [hL.len t hm, hk]⟩

/-! ### The commit phase -/

/-- The oracles of the honest prover: each is the previous one with the codewords of its size, folded; the last fold is `final`. -/
inductive BatchChain (S : CodeScheme E) (H : MerkleHasher B E D) (words : List (List E × E)) (final : List E) :
    List E → List E → List (MerkleTree B E D) → List D → Prop
  | last (oracle : List E) (c : E) : foldCodeword S (mergeOracle words oracle) c = some final → BatchChain S H words final oracle [c] [] []
  | step (oracle oracle' : List E) (c c' : E) (cs : List E) (tree : MerkleTree B E D) (root : D) (trees : List (MerkleTree B E D)) (roots : List D) :
      foldCodeword S (mergeOracle words oracle) c = some oracle' → MerkleTree.fromBatchLeaves H [.ext oracle'] = some tree → tree.root = some root →
      BatchChain S H words final oracle' (c' :: cs) trees roots → BatchChain S H words final oracle (c :: c' :: cs) (tree :: trees) (root :: roots)

theorem batchCommitLoop_spec (S : CodeScheme E) (word : ℕ → List E → List E) (good : GoodCode S word) (linear : LinearCode S word)
    (env : BfEnv B E D) (hb : 0 < S.basecodeLog) (L : List (Item E)) (hL : ItemsOk S L) :
    ∀ (r : ℕ) (U f g v w last : List E) (ts : env.T.State), S.basecodeLog + r + 1 ≤ S.maxLog → U.length = 2 ^ (S.basecodeLog + r + 1) →
      f.length = 2 ^ (S.basecodeLog + r + 1) → g.length = 2 ^ (S.basecodeLog + r + 1) →
      (∀ j, j < 2 ^ (S.basecodeLog + r + 1) → f.getD j 0 = (tabMerge L (S.basecodeLog + r + 1) U).getD j 0 + lowSum L (S.basecodeLog + r + 1) j) →
      Level (S.basecodeLog + r) f v → Level (S.basecodeLog + r) g w → parallelPi v w = some last →
      ∃ cp cs ts', batchCommitLoop S env (itemWords word L) (r + 1) w v
          (mergeOracle (itemWords word L) (wordOf word (S.basecodeLog + r + 1) U)) last ts = some cp ∧ cs.length = r + 1 ∧
        cp.messages.length = r + 1 ∧
        cp.finalMessage = fixHigh f cs ∧ bfChallenges env (r + 1) cp.messages cp.roots ts = some (cs, ts') ∧
        cp.ts = env.T.appendExts ts' cp.finalMessage ∧
        sumcheckEquations cp.messages cs (dotN (2 ^ (S.basecodeLog + r + 1)) f g) (dotN (2 ^ S.basecodeLog) (fixHigh f cs) (fixHigh g cs)) = some () ∧
        BatchChain S env.hasher (itemWords word L) (wordOf word S.basecodeLog (fixHigh f cs)) (wordOf word (S.basecodeLog + r + 1) U) cs cp.trees cp.roots := by
  intro r
  induction r with
  | zero =>
    intro U f g v w last ts hmax hU hf hg hsum hv hw hlast
    obtain ⟨msg, m1, m2, m3⟩ := level_message S.basecodeLog f g v w hf hg hv hw
    rw [m1] at hlast
    obtain rfl := Option.some.inj hlast
    obtain ⟨c, hc⟩ : ∃ c, c = env.T.labelled (env.T.appendExts ts msg) "commit round" := ⟨_, rfl⟩
    have hA := (tabMerge_spec L (S.basecodeLog + 0 + 1) hL.len U hU).1
    have hmerge := mergeOracle_word S word good linear hb L hL (S.basecodeLog + 0 + 1) (by omega) hmax U hU
    obtain ⟨A, hAdef⟩ : ∃ A, A = tabMerge L (S.basecodeLog + 0 + 1) U := ⟨_, rfl⟩
    rw [← hAdef] at hA hmerge hsum
    have hfold := good.fold S.basecodeLog (interpC A) c.1 le_rfl hmax (interpC_spec _ (by omega) A hA).2.1
    rw [topFold_interpC _ hb A hA] at hfold
    have hp : 2 ^ (S.basecodeLog + 0 + 1) = 2 * 2 ^ S.basecodeLog := by rw [pow_succ]; ring
    have hAf : highFix c.1 (2 ^ S.basecodeLog) A = highFix c.1 (2 ^ S.basecodeLog) f := by
      apply list_ext_getD 0
      · rw [highFix_length _ _ _ (by omega), highFix_length _ _ _ (by omega)]
      · intro j hj
        rw [highFix_length _ _ _ (by omega)] at hj
        have hst := merged_step L hL.len S.basecodeLog c.1 f A hf hA hsum j hj
        rw [lowSum_none L _ _ (fun t ht => le_of_lt (hL.low t ht)), add_zero,
          (tabMerge_spec L _ hL.len _ (highFix_length _ _ _ (by omega))).2 j hj] at hst
        have hno : (L.filter fun t => t.1 = S.basecodeLog) = [] := by
          rw [List.filter_eq_nil_iff]
          intro t ht
          have := hL.low t ht
          simp; omega
        rw [hno] at hst
        simpa using hst.symm
    rw [hAf] at hfold
    have hfx := fixHigh_cons f S.basecodeLog hf c.1 []
    have hgx := fixHigh_cons g S.basecodeLog hg c.1 []
    have hnil : ∀ l : List E, fixHigh l [] = l := fun l => rfl
    rw [hnil] at hfx hgx
    rw [hmerge]
    refine ⟨⟨[msg], [], [], fixHigh f [c.1], env.T.appendExts c.2 (fixHigh f [c.1])⟩, [c.1], c.2, ?_, rfl, rfl, rfl, ?_, rfl, ?_, ?_⟩
    · simp only [batchCommitLoop, batchLastStep]
      unfold wordOf
      rw [← hc, hfold]
      simp only [Option.bind_eq_bind, Option.bind_some, bfLastRound]
      rw [level_eval _ f v hf hv, level_eval _ g w hg hw]
      simp only [Option.bind_some]
      rw [reverseIndexBits_eq 0 S.basecodeLog _ (bitrev_length _ _ _), bitrev_bitrev 0 _ _ (highFix_length _ _ _ (by omega))]
      simp only [Option.bind_some]
      rw [hfx]
    · simp only [bfChallenges, List.head?_cons, Option.bind_eq_bind, Option.bind_some, ← hc]
    · simp only [sumcheckEquations]
      rw [m2, m3]
      simp only [Option.bind_eq_bind, Option.bind_some, hfx, hgx, if_true]
    · refine BatchChain.last _ _ ?_
      rw [hfx, hmerge]
      exact hfold
  | succ r ih =>
    intro U f g v w last ts hmax hU hf hg hsum hv hw hlast
    obtain ⟨k, hk⟩ : ∃ k, k = S.basecodeLog + r + 1 := ⟨_, rfl⟩
    have hk' : S.basecodeLog + (r + 1) = k := by omega
    rw [hk'] at hmax hf hg hv hw hU hsum
    obtain ⟨msg, m1, m2, m3⟩ := level_message k f g v w hf hg hv hw
    rw [m1] at hlast
    obtain rfl := Option.some.inj hlast
    obtain ⟨c, hc⟩ : ∃ c, c = env.T.labelled (env.T.appendExts ts msg) "commit round" := ⟨_, rfl⟩
    have hp : 2 ^ (k + 1) = 2 * 2 ^ k := by rw [pow_succ]; ring
    have hf' : (highFix c.1 (2 ^ k) f).length = 2 ^ k := highFix_length _ _ _ (by omega)
    have hg' : (highFix c.1 (2 ^ k) g).length = 2 ^ k := highFix_length _ _ _ (by omega)
    have hA := (tabMerge_spec L (k + 1) hL.len U hU).1
    have hmerge := mergeOracle_word S word good linear hb L hL (k + 1) (by omega) hmax U hU
    obtain ⟨A, hAdef⟩ : ∃ A, A = tabMerge L (k + 1) U := ⟨_, rfl⟩
    rw [← hAdef] at hA hmerge hsum
    have hA' : (highFix c.1 (2 ^ k) A).length = 2 ^ k := highFix_length _ _ _ (by omega)
    have hfold := good.fold k (interpC A) c.1 (by omega) hmax (interpC_spec _ (by omega) A hA).2.1
    rw [topFold_interpC _ (by omega) A hA] at hfold
    have hstep := merged_step L hL.len k c.1 f A hf hA hsum
    obtain ⟨v', v1, v2⟩ := level_interp (S.basecodeLog + r) (highFix c.1 (2 ^ k) f)
    obtain ⟨w', w1, w2⟩ := level_interp (S.basecodeLog + r) (highFix c.1 (2 ^ k) g)
    rw [← hk] at v1 w1
    obtain ⟨last', l1, l2, l3⟩ := level_message (S.basecodeLog + r) (highFix c.1 (2 ^ k) f) (highFix c.1 (2 ^ k) g) v' w' (by rw [hf', hk])
      (by rw [hg', hk]) v2 w2
    have hwl : (wordOf word k (highFix c.1 (2 ^ k) A)).length = 2 ^ (k + S.rateLog) :=
      good.length k _ (by omega) (by omega) (interpC_spec k (by omega) _ hA').2.1
    obtain ⟨tree, root, _, t1, t2, _, _⟩ := Props.C42_single_ext env.hasher (wordOf word k (highFix c.1 (2 ^ k) A)) 0 (k + S.rateLog - 1) 0
      (by rw [hwl]; congr 1; omega) (Nat.two_pow_pos _)
    obtain ⟨cp, cs, ts', i1, i2, i3, i4, i5, i6, i7, i8⟩ := ih (highFix c.1 (2 ^ k) A) (highFix c.1 (2 ^ k) f) (highFix c.1 (2 ^ k) g) v' w' last'
      (env.appendDigest c.2 root) (by omega) (by rw [hA', hk]) (by rw [hf', hk]) (by rw [hg', hk]) (by rw [← hk]; exact hstep) v2 w2 l1
    rw [← hk] at i1 i8 i7
    have hfx := fixHigh_cons f k hf c.1 cs
    have hgx := fixHigh_cons g k hg c.1 cs
    obtain ⟨c', cs', rfl⟩ : ∃ c' cs', cs = c' :: cs' := by
      rcases cs with _ | ⟨a, l⟩
      · simp at i2
      · exact ⟨a, l, rfl⟩
    rw [hk', hmerge]
    refine ⟨⟨msg :: cp.messages, root :: cp.roots, tree :: cp.trees, cp.finalMessage, cp.ts⟩, c.1 :: c' :: cs', ts', ?_, ?_, ?_, ?_, ?_, i6, ?_, ?_⟩
    · simp only [batchCommitLoop]
      have hfold' : foldCodeword S (wordOf word (k + 1) A) c.1 = some (wordOf word k (highFix c.1 (2 ^ k) A)) := hfold
      rw [← hc, hfold']
      simp only [Option.bind_eq_bind, Option.bind_some, bfChallengeRound, bfLastRound]
      rw [level_eval k f v hf hv, level_eval k g w hg hw]
      simp only [Option.bind_some, bfFirstRound, Option.bind_eq_bind, v1, w1, l1, t1, t2, i1]
    · simp [i2]
    · simp [i3]
    · simp only [i4, hfx]
    · simp only [bfChallenges, List.head?_cons, Option.bind_eq_bind, Option.bind_some, ← hc, List.tail_cons, i5]
    · simp only [sumcheckEquations]
      rw [m2, m3]
      simp only [Option.bind_eq_bind, Option.bind_some, hfx, hgx, if_true, i7]
    · rw [hfx]
      refine BatchChain.step _ _ _ _ _ _ _ _ _ ?_ t1 t2 i8
      rw [hmerge]
      exact hfold

end Lemmas
