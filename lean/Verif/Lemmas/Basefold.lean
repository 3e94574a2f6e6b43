import Verif.Lemmas.OneLevel
import Verif.Lemmas.Basecode
import Verif.Lemmas.Tables
import Verif.Props.Merkle

/-! The opening of one polynomial: coefficients, sumcheck messages, oracles and queries of the honest prover. -/

open Spec Model

namespace Lemmas

variable {F : Type} [Field F]

/-! ### Coefficients -/

theorem monomial_snoc (x : List F) (z : F) (i : ℕ) (hi : i < 2 ^ x.length) :
    monomial (x ++ [z]) i = monomial x i ∧ monomial (x ++ [z]) (i + 2 ^ x.length) = monomial x i * z := by
  have hlen : (x ++ [z]).length = x.length + 1 := by simp
  have key : ∀ j, monomial (x ++ [z]) j = (∏ k ∈ Finset.range x.length, if j.testBit k then x.getD k 0 else 1) *
      (if j.testBit x.length then z else 1) := by
    intro j
    unfold monomial
    have h : ∀ k : Fin (x ++ [z]).length, (if j.testBit k then (x ++ [z])[k] else 1)
        = (fun k : ℕ => if j.testBit k then (x ++ [z]).getD k 0 else 1) k := by
      intro k
      simp only [List.getD_eq_getElem?_getD]
      congr 1
      simp [List.getElem?_eq_getElem k.2]
    rw [Finset.prod_congr rfl (fun k _ => h k), Fin.prod_univ_eq_prod_range (fun k : ℕ => if j.testBit k then (x ++ [z]).getD k 0 else 1),
      hlen, Finset.prod_range_succ]
    congr 1
    · refine Finset.prod_congr rfl fun k hk => ?_
      rw [List.getD_append _ _ _ _ (Finset.mem_range.mp hk)]
    · simp [List.getD_eq_getElem?_getD]
  have key0 : ∀ j, monomial x j = ∏ k ∈ Finset.range x.length, if j.testBit k then x.getD k 0 else 1 := by
    intro j
    unfold monomial
    have h : ∀ k : Fin x.length, (if j.testBit k then x[k] else 1) = (fun k : ℕ => if j.testBit k then x.getD k 0 else 1) k := by
      intro k
      simp [List.getD_eq_getElem?_getD]
    rw [Finset.prod_congr rfl (fun k _ => h k), Fin.prod_univ_eq_prod_range (fun k : ℕ => if j.testBit k then x.getD k 0 else 1)]
  rw [key, key, key0]
  constructor
  · rw [Nat.testBit_lt_two_pow hi]; simp
  · rw [add_comm i, Nat.testBit_two_pow_add_eq, Nat.testBit_lt_two_pow hi]
    simp only [Bool.not_false, if_true]
    congr 1
    refine Finset.prod_congr rfl fun k hk => ?_
    rw [Nat.testBit_two_pow_add_gt (Finset.mem_range.mp hk)]

theorem coeffForm_snoc (k : ℕ) (cf : List F) (x : List F) (hx : x.length = k) (z : F) :
    coeffForm cf (x ++ [z]) = coeffForm (topFold k cf z) x := by
  subst hx
  unfold coeffForm topFold
  rw [List.length_append, List.length_singleton, pow_succ, mul_two, Finset.sum_range_add, ← Finset.sum_add_distrib]
  refine Finset.sum_congr rfl fun i hi => ?_
  have hi' := Finset.mem_range.mp hi
  rw [add_comm (2 ^ x.length) i, (monomial_snoc x z i hi').1, (monomial_snoc x z i hi').2, getD_map_range' _ _ _ _ hi']
  ring

theorem coeffForm_unique : ∀ (n : ℕ) (c d : List F), c.length = 2 ^ n → d.length = 2 ^ n →
    (∀ x, x.length = n → coeffForm c x = coeffForm d x) → c = d := by
  intro n
  induction n with
  | zero =>
    intro c d hc hd h
    have := h [] rfl
    obtain ⟨a, rfl⟩ := List.length_eq_one_iff.mp hc
    obtain ⟨b, rfl⟩ := List.length_eq_one_iff.mp hd
    simpa [coeffForm, monomial] using this
  | succ n ih =>
    intro c d hc hd h
    have hp : 2 ^ (n + 1) = 2 ^ n + 2 ^ n := by rw [pow_succ]; ring
    have key : ∀ z, topFold n c z = topFold n d z := by
      intro z
      apply ih _ _ (by simp [topFold]) (by simp [topFold])
      intro x hx
      rw [← coeffForm_snoc n c x hx, ← coeffForm_snoc n d x hx, h _ (by simp [hx])]
    have hz : ∀ z i, i < 2 ^ n → c.getD i 0 + c.getD (i + 2 ^ n) 0 * z = d.getD i 0 + d.getD (i + 2 ^ n) 0 * z := by
      intro z i hi
      have := congrArg (fun l : List F => l.getD i 0) (key z)
      simp only [topFold] at this
      rwa [getD_map_range' _ _ _ _ hi, getD_map_range' _ _ _ _ hi] at this
    have lo : ∀ i, i < 2 ^ n → c.getD i 0 = d.getD i 0 := by
      intro i hi; simpa using hz 0 i hi
    apply list_ext_getD 0 _ _ (by rw [hc, hd])
    intro i hi
    by_cases h1 : i < 2 ^ n
    · exact lo i h1
    · obtain ⟨j, rfl⟩ : ∃ j, i = j + 2 ^ n := ⟨i - 2 ^ n, by omega⟩
      have hj : j < 2 ^ n := by omega
      have := hz 1 j hj
      rw [lo j hj] at this
      simpa using this

/-- The coefficients of a table of values. -/
def interpC (f : List F) : List F := (interpolateHypercube f).getD []

theorem interpC_spec (n : ℕ) (hn : 0 < n) (f : List F) (hl : f.length = 2 ^ n) :
    interpolateHypercube f = some (interpC f) ∧ (interpC f).length = 2 ^ n ∧ ∀ x, x.length = n → coeffForm (interpC f) x = mle f x := by
  obtain ⟨c, h1, h2, h3⟩ := interpolate_spec n hn f hl
  have : interpC f = c := by unfold interpC; rw [h1]; rfl
  rw [this]
  exact ⟨h1, h2, h3⟩

theorem topFold_interpC (k : ℕ) (hk : 0 < k) (f : List F) (hl : f.length = 2 ^ (k + 1)) (c : F) :
    topFold k (interpC f) c = interpC (highFix c (2 ^ k) f) := by
  have hp : 2 ^ (k + 1) = 2 * 2 ^ k := by rw [pow_succ]; ring
  obtain ⟨h1, h2, h3⟩ := interpC_spec (k + 1) (by omega) f hl
  obtain ⟨g1, g2, g3⟩ := interpC_spec k hk (highFix c (2 ^ k) f) (highFix_length _ _ _ (by omega))
  apply coeffForm_unique k _ _ (by simp [topFold]) g2
  intro x hx
  rw [← coeffForm_snoc k _ x hx, h3 _ (by simp [hx]), g3 x hx, mle_snoc _ _ _ (by rw [hl, hx]), hx]

/-! ### One round -/

/-- The sum of products of two tables. -/
def dotN (n : ℕ) (f g : List F) : F := ∑ i ∈ Finset.range n, f.getD i 0 * g.getD i 0

/-- `w` holds the one-level interpolation of the bit-reversed table `f` of `k + 1` variables. -/
structure Level (k : ℕ) (f w : List F) : Prop where
  len : w.length = 2 * 2 ^ k
  even : ∀ i, i < 2 ^ k → w.getD (2 * i) 0 = f.getD (revBits k i) 0
  odd : ∀ i, i < 2 ^ k → w.getD (2 * i + 1) 0 = f.getD (2 ^ k + revBits k i) 0 - f.getD (revBits k i) 0

theorem level_interp (k : ℕ) (f : List F) : ∃ w, oneLevelInterp (bitrev 0 (k + 1) f) = some w ∧ Level k f w := by
  have hp : 2 ^ (k + 1) = 2 * 2 ^ k := by rw [pow_succ]; ring
  obtain ⟨w, h1, h2, h3⟩ := oneLevelInterp_spec (2 ^ k) (bitrev 0 (k + 1) f) (by rw [bitrev_length]; omega)
  refine ⟨w, h1, h2, ?_, ?_⟩
  · intro i hi
    rw [(h3 i hi).1, bitrev_getD _ _ _ _ (by omega), revBits_even]
  · intro i hi
    rw [(h3 i hi).2, bitrev_getD _ _ _ _ (by omega), bitrev_getD _ _ _ _ (by omega), revBits_even, revBits_odd, add_comm]

theorem level_eval (k : ℕ) (f w : List F) (hl : f.length = 2 ^ (k + 1)) (h : Level k f w) (c : F) :
    oneLevelEval w c = some (bitrev 0 k (highFix c (2 ^ k) f)) := by
  have hp : 2 ^ (k + 1) = 2 * 2 ^ k := by rw [pow_succ]; ring
  rw [oneLevelEval_eq (2 ^ k) w h.len, bitrev]
  congr 1
  apply List.map_congr_left
  intro i hi
  have hi' := List.mem_range.mp hi
  rw [h.even i hi', h.odd i hi', highFix_getD _ _ _ (by omega) _ (revBits_lt _ _)]
  ring

theorem piFold_eq (a b : ℕ → F × F) : ∀ (l : List ℕ) (acc : F × F × F),
    piFold (l.map fun i => [(a i).1, (a i).2]) (l.map fun i => [(b i).1, (b i).2]) acc
      = some (acc.1 + (l.map fun i => (a i).1 * (b i).1).sum, acc.2.1 + (l.map fun i => (a i).2 * (b i).1 + (a i).1 * (b i).2).sum,
        acc.2.2 + (l.map fun i => (a i).2 * (b i).2).sum) := by
  intro l
  induction l with
  | nil => intro acc; simp [piFold]
  | cons i l ih =>
    intro acc
    simp only [List.map_cons, piFold, List.sum_cons]
    rw [ih]
    simp [add_assoc]

theorem parallelPi_eq (m : ℕ) (v w : List F) (hv : v.length = 2 * m) (hw : w.length = 2 * m) :
    parallelPi v w = some [∑ i ∈ Finset.range m, v.getD (2 * i) 0 * w.getD (2 * i) 0,
      ∑ i ∈ Finset.range m, (v.getD (2 * i + 1) 0 * w.getD (2 * i) 0 + v.getD (2 * i) 0 * w.getD (2 * i + 1) 0),
      ∑ i ∈ Finset.range m, v.getD (2 * i + 1) 0 * w.getD (2 * i + 1) 0] := by
  unfold parallelPi
  rw [if_neg (by omega), chunks_two_pairs m v hv, chunks_two_pairs m w hw]
  have := piFold_eq (fun i => (v.getD (2 * i) 0, v.getD (2 * i + 1) 0)) (fun i => (w.getD (2 * i) 0, w.getD (2 * i + 1) 0)) (List.range m) (0, 0, 0)
  simp only at this
  rw [this]
  simp only [Option.bind_eq_bind, Option.bind_some, zero_add, sum_map_range]

theorem sum_revBits (k : ℕ) (f : ℕ → F) : ∑ i ∈ Finset.range (2 ^ k), f (revBits k i) = ∑ i ∈ Finset.range (2 ^ k), f i := by
  refine Finset.sum_bij' (fun i _ => revBits k i) (fun i _ => revBits k i) ?_ ?_ ?_ ?_ ?_
  · intro i _; exact Finset.mem_range.mpr (revBits_lt _ _)
  · intro i _; exact Finset.mem_range.mpr (revBits_lt _ _)
  · intro i hi; exact revBits_revBits _ _ (Finset.mem_range.mp hi)
  · intro i hi; exact revBits_revBits _ _ (Finset.mem_range.mp hi)
  · intro i _; rfl

/-- The message of a round: the claim it answers and its value at the challenge. -/
theorem level_message (k : ℕ) (f g v w : List F) (hf : f.length = 2 ^ (k + 1)) (hg : g.length = 2 ^ (k + 1)) (hv : Level k f v) (hw : Level k g w) :
    ∃ msg, parallelPi v w = some msg ∧ degree2ZeroPlusOne msg = some (dotN (2 ^ (k + 1)) f g) ∧
      ∀ c, degree2Eval msg c = some (dotN (2 ^ k) (highFix c (2 ^ k) f) (highFix c (2 ^ k) g)) := by
  have hp : 2 ^ (k + 1) = 2 * 2 ^ k := by rw [pow_succ]; ring
  refine ⟨_, parallelPi_eq (2 ^ k) v w hv.len hw.len, ?_, ?_⟩
  · unfold degree2ZeroPlusOne
    simp only [List.getElem?_cons_zero, List.getElem?_cons_succ, Option.bind_eq_bind, Option.bind_some, Option.some.injEq]
    unfold dotN
    rw [hp, two_mul, Finset.sum_range_add, ← sum_revBits k (fun i => f.getD i 0 * g.getD i 0),
      ← sum_revBits k (fun i => f.getD (2 ^ k + i) 0 * g.getD (2 ^ k + i) 0), ← Finset.sum_add_distrib, ← Finset.sum_add_distrib,
      ← Finset.sum_add_distrib, ← Finset.sum_add_distrib]
    refine Finset.sum_congr rfl fun i hi => ?_
    have hi' := Finset.mem_range.mp hi
    rw [hv.even i hi', hv.odd i hi', hw.even i hi', hw.odd i hi']
    ring
  · intro c
    unfold degree2Eval
    simp only [List.getElem?_cons_zero, List.getElem?_cons_succ, Option.bind_eq_bind, Option.bind_some, Option.some.injEq]
    unfold dotN
    rw [← sum_revBits k (fun i => (highFix c (2 ^ k) f).getD i 0 * (highFix c (2 ^ k) g).getD i 0), Finset.mul_sum, Finset.mul_sum,
      ← Finset.sum_add_distrib, ← Finset.sum_add_distrib]
    refine Finset.sum_congr rfl fun i hi => ?_
    have hi' := Finset.mem_range.mp hi
    rw [hv.even i hi', hv.odd i hi', hw.even i hi', hw.odd i hi', highFix_getD _ _ _ (by omega) _ (revBits_lt _ _),
      highFix_getD _ _ _ (by omega) _ (revBits_lt _ _)]
    ring

/-! ### The commit phase -/

variable {B E D : Type} [Field E] [DecidableEq E] [DecidableEq D]

/-- The oracles of the honest prover: each is the previous one folded, committed to with its own tree; the last fold is `final`. -/
inductive OracleChain (S : CodeScheme E) (H : MerkleHasher B E D) (final : List E) :
    List E → List E → List (MerkleTree B E D) → List D → Prop
  | last (oracle : List E) (c : E) : foldCodeword S oracle c = some final → OracleChain S H final oracle [c] [] []
  | step (oracle oracle' : List E) (c c' : E) (cs : List E) (tree : MerkleTree B E D) (root : D) (trees : List (MerkleTree B E D)) (roots : List D) :
      foldCodeword S oracle c = some oracle' → MerkleTree.fromBatchLeaves H [.ext oracle'] = some tree → tree.root = some root →
      OracleChain S H final oracle' (c' :: cs) trees roots → OracleChain S H final oracle (c :: c' :: cs) (tree :: trees) (root :: roots)

theorem fixHigh_cons (f : List E) (k : ℕ) (hf : f.length = 2 ^ (k + 1)) (c : E) (cs : List E) :
    fixHigh f (c :: cs) = fixHigh (highFix c (2 ^ k) f) cs := by
  have : f.length / 2 = 2 ^ k := by rw [hf, pow_succ]; omega
  simp only [fixHigh, List.foldl_cons, this]

theorem bfCommitLoop_spec (S : CodeScheme E) (word : ℕ → List E → List E) (good : GoodCode S word) (env : BfEnv B E D) (hb : 0 < S.basecodeLog) :
    ∀ (r : ℕ) (f g v w last : List E) (ts : env.T.State), S.basecodeLog + r + 1 ≤ S.maxLog → f.length = 2 ^ (S.basecodeLog + r + 1) →
      g.length = 2 ^ (S.basecodeLog + r + 1) → Level (S.basecodeLog + r) f v → Level (S.basecodeLog + r) g w → parallelPi v w = some last →
      ∃ cp cs ts', bfCommitLoop S env (r + 1) w v (word (S.basecodeLog + r + 1) (interpC f)) last ts = some cp ∧ cs.length = r + 1 ∧
        cp.messages.length = r + 1 ∧
        cp.finalMessage = fixHigh f cs ∧ bfChallenges env (r + 1) cp.messages cp.roots ts = some (cs, ts') ∧
        cp.ts = env.T.appendExts ts' cp.finalMessage ∧
        sumcheckEquations cp.messages cs (dotN (2 ^ (S.basecodeLog + r + 1)) f g) (dotN (2 ^ S.basecodeLog) (fixHigh f cs) (fixHigh g cs)) = some () ∧
        OracleChain S env.hasher (word S.basecodeLog (interpC (fixHigh f cs))) (word (S.basecodeLog + r + 1) (interpC f)) cs cp.trees cp.roots := by
  intro r
  induction r with
  | zero =>
    intro f g v w last ts hmax hf hg hv hw hlast
    obtain ⟨msg, m1, m2, m3⟩ := level_message S.basecodeLog f g v w hf hg hv hw
    rw [m1] at hlast
    obtain rfl := Option.some.inj hlast
    obtain ⟨c, hc⟩ : ∃ c, c = env.T.labelled (env.T.appendExts ts msg) "commit round" := ⟨_, rfl⟩
    have hfold := good.fold S.basecodeLog (interpC f) c.1 le_rfl hmax (interpC_spec _ (by omega) f hf).2.1
    rw [topFold_interpC _ hb f hf] at hfold
    have hfx := fixHigh_cons f S.basecodeLog hf c.1 []
    have hgx := fixHigh_cons g S.basecodeLog hg c.1 []
    have hnil : ∀ l : List E, fixHigh l [] = l := fun l => rfl
    rw [hnil] at hfx hgx
    have hp : 2 ^ (S.basecodeLog + 0 + 1) = 2 * 2 ^ S.basecodeLog := by rw [pow_succ]; ring
    refine ⟨⟨[msg], [], [], fixHigh f [c.1], env.T.appendExts c.2 (fixHigh f [c.1])⟩, [c.1], c.2, ?_, rfl, rfl, rfl, ?_, rfl, ?_, ?_⟩
    · simp only [bfCommitLoop, bfLastStep]
      rw [← hc, hfold]
      simp only [Option.bind_eq_bind, Option.bind_some, bfLastRound]
      rw [level_eval _ f v hf hv, level_eval _ g w hg hw]
      simp only [Option.bind_some]
      rw [reverseIndexBits_eq 0 S.basecodeLog _ (bitrev_length _ _ _), bitrev_bitrev 0 _ _ (highFix_length _ _ _ (by omega))]
      simp only [Option.bind_some]
      rw [hfx]
    · simp only [bfChallenges, List.head?_cons, Option.bind_eq_bind, Option.bind_some, ← hc]
    · simp only [sumcheckEquations]
      rw [m2, m3]
      simp only [Option.bind_eq_bind, Option.bind_some, hfx, hgx, if_true]
    · refine OracleChain.last _ _ ?_
      rw [hfx]
      exact hfold
  | succ r ih =>
    intro f g v w last ts hmax hf hg hv hw hlast
    obtain ⟨k, hk⟩ : ∃ k, k = S.basecodeLog + r + 1 := ⟨_, rfl⟩
    have hk' : S.basecodeLog + (r + 1) = k := by omega
    rw [hk'] at hmax hf hg hv hw
    obtain ⟨msg, m1, m2, m3⟩ := level_message k f g v w hf hg hv hw
    rw [m1] at hlast
    obtain rfl := Option.some.inj hlast
    obtain ⟨c, hc⟩ : ∃ c, c = env.T.labelled (env.T.appendExts ts msg) "commit round" := ⟨_, rfl⟩
    have hp : 2 ^ (k + 1) = 2 * 2 ^ k := by rw [pow_succ]; ring
    have hf' : (highFix c.1 (2 ^ k) f).length = 2 ^ k := highFix_length _ _ _ (by omega)
    have hg' : (highFix c.1 (2 ^ k) g).length = 2 ^ k := highFix_length _ _ _ (by omega)
    have hfold := good.fold k (interpC f) c.1 (by omega) hmax (interpC_spec _ (by omega) f hf).2.1
    rw [topFold_interpC _ (by omega) f hf] at hfold
    obtain ⟨v', v1, v2⟩ := level_interp (S.basecodeLog + r) (highFix c.1 (2 ^ k) f)
    obtain ⟨w', w1, w2⟩ := level_interp (S.basecodeLog + r) (highFix c.1 (2 ^ k) g)
    rw [← hk] at v1 w1
    obtain ⟨last', l1, l2, l3⟩ := level_message (S.basecodeLog + r) (highFix c.1 (2 ^ k) f) (highFix c.1 (2 ^ k) g) v' w' (by rw [hf', hk])
      (by rw [hg', hk]) v2 w2
    have hwl : (word k (interpC (highFix c.1 (2 ^ k) f))).length = 2 ^ (k + S.rateLog) :=
      good.length k _ (by omega) (by omega) (interpC_spec k (by omega) _ hf').2.1
    obtain ⟨tree, root, _, t1, t2, _, _⟩ := Props.C42_single_ext env.hasher (word k (interpC (highFix c.1 (2 ^ k) f))) 0 (k + S.rateLog - 1) 0
      (by rw [hwl]; congr 1; omega) (Nat.two_pow_pos _)
    obtain ⟨cp, cs, ts', i1, i2, i3, i4, i5, i6, i7, i8⟩ := ih (highFix c.1 (2 ^ k) f) (highFix c.1 (2 ^ k) g) v' w' last'
      (env.appendDigest c.2 root) (by omega) (by rw [hf', hk]) (by rw [hg', hk]) v2 w2 l1
    rw [← hk] at i1 i8 i7
    have hfx := fixHigh_cons f k hf c.1 cs
    have hgx := fixHigh_cons g k hg c.1 cs
    obtain ⟨c', cs', rfl⟩ : ∃ c' cs', cs = c' :: cs' := by
      rcases cs with _ | ⟨a, l⟩
      · simp at i2
      · exact ⟨a, l, rfl⟩
    refine ⟨⟨msg :: cp.messages, root :: cp.roots, tree :: cp.trees, cp.finalMessage, cp.ts⟩, c.1 :: c' :: cs', ts', ?_, ?_, ?_, ?_, ?_, i6, ?_, ?_⟩
    · simp only [bfCommitLoop]
      rw [← hc, hk', hfold]
      simp only [Option.bind_eq_bind, Option.bind_some, bfChallengeRound, bfLastRound]
      rw [level_eval k f v hf hv, level_eval k g w hg hw]
      simp only [Option.bind_some, bfFirstRound, Option.bind_eq_bind, v1, w1, l1, t1, t2, i1]
    · simp [i2]
    · simp [i3]
    · simp only [i4, hfx]
    · simp only [bfChallenges, List.head?_cons, Option.bind_eq_bind, Option.bind_some, ← hc, List.tail_cons, i5]
    · simp only [sumcheckEquations]
      rw [hk', m2, m3]
      simp only [Option.bind_eq_bind, Option.bind_some, hfx, hgx, if_true, i7]
    · rw [hk', hfx]
      exact OracleChain.step _ _ _ _ _ _ _ _ _ hfold t1 t2 i8

/-! ### Queries -/

theorem or_one (x : ℕ) : x ||| 1 = 2 * (x / 2) + 1 := by
  apply Nat.eq_of_testBit_eq
  intro i
  rcases i with _ | i
  · simp [Nat.testBit_zero]
  · rw [Nat.testBit_or, Nat.testBit_succ, Nat.testBit_succ, Nat.testBit_succ, show (2 * (x / 2) + 1) / 2 = x / 2 by omega]
    simp

theorem bfGetPair_spec (H : MerkleHasher B E D) (oracle : List E) (k x : ℕ) (hl : oracle.length = 2 ^ (k + 1)) (hx : x < 2 ^ (k + 1))
    (tree : MerkleTree B E D) (root : D) (ht : MerkleTree.fromBatchLeaves H [.ext oracle] = some tree) (hroot : tree.root = some root) :
    ∃ q, bfGetPair tree x = some q ∧ q.points = .ext (oracle.getD (2 * (x / 2)) 0) (oracle.getD (2 * (x / 2) + 1) 0) ∧
      q.index = 2 * (x / 2) ∧ q.checkPath H root = some () := by
  have hp : 2 ^ (k + 1) = 2 * 2 ^ k := by rw [pow_succ]; ring
  have hx2 : x / 2 < 2 ^ k := by omega
  obtain ⟨t, root', path, h1, h2, h3, h4, h5⟩ := Props.C42_single_ext H oracle 0 k (2 * (x / 2)) hl (by omega)
  rw [ht] at h1
  obtain rfl := Option.some.inj h1
  rw [hroot] at h2
  obtain rfl := Option.some.inj h2
  rw [show 2 * (x / 2) / 2 = x / 2 by omega] at h5
  have hleaves : tree.leaves = [.ext oracle] := by
    unfold MerkleTree.fromBatchLeaves at ht
    rcases hm : merkelize H [FieldType.ext oracle] with _ | inner
    · rw [hm] at ht; cases ht
    · rw [hm] at ht
      cases ht
      rfl
  refine ⟨⟨.ext (oracle.getD (2 * (x / 2)) 0) (oracle.getD (2 * (x / 2) + 1) 0), 2 * (x / 2), path⟩, ?_, rfl, rfl, ?_⟩
  · unfold bfGetPair
    dsimp only
    rw [or_one, hleaves, show 2 * (x / 2) + 1 - 1 = 2 * (x / 2) by omega]
    simp only [Option.bind_eq_bind, Option.bind_some]
    rw [getElem?_of_lt oracle _ 0 (by omega), getElem?_of_lt oracle (2 * (x / 2) + 1) 0 (by omega), h3]
    rfl
  · unfold CodeQuery.checkPath
    simp only [h5]
    rfl

theorem mapM_at {α β : Type} (f : α → Option β) : ∀ (l : List α) (o : List β), l.mapM f = some o →
    o.length = l.length ∧ ∀ (i : ℕ) (a : α), l[i]? = some a → f a = o[i]? := by
  intro l
  induction l with
  | nil => intro o h; simp at h; subst h; simp
  | cons a l ih =>
    intro o h
    rw [List.mapM_cons] at h
    rcases ha : f a with _ | b
    · rw [ha] at h; cases h
    · rw [ha] at h
      rcases hl : l.mapM f with _ | bs
      · rw [hl] at h; cases h
      · rw [hl] at h
        cases h
        obtain ⟨h1, h2⟩ := ih bs hl
        refine ⟨by simp [h1], ?_⟩
        intro i x hi
        rcases i with _ | i
        · simp at hi; subst hi; simpa using ha
        · simp at hi ⊢; exact h2 i x hi

theorem foldCodeword_at (S : CodeScheme E) (n : ℕ) (v v' : List E) (hl : v.length = 2 ^ (n + 1)) (c : E) (h : foldCodeword S v c = some v') :
    v'.length = 2 ^ n ∧ ∀ i x, i < 2 ^ n → S.proverCoeffs n i = some x →
      v'[i]? = some (interpolate2Weights x.1 (v.getD (2 * i) 0) x.2.1 (v.getD (2 * i + 1) 0) x.2.2 c) := by
  have hp : 2 ^ (n + 1) = 2 * 2 ^ n := by rw [pow_succ]; ring
  unfold foldCodeword at h
  rw [hl, log2Strict_pow] at h
  simp only [Option.bind_eq_bind, Option.bind_some, checkedSub, show (1 : ℕ) ≤ n + 1 from by omega, if_true, Nat.add_sub_cancel,
    show 2 ^ (n + 1) / 2 = 2 ^ n by omega] at h
  obtain ⟨hlen, hget⟩ := mapM_at _ _ _ h
  refine ⟨by rw [hlen, List.length_range], ?_⟩
  intro i x hi hx
  have := hget i i (by simp [hi])
  rw [getElem?_of_lt v _ 0 (by omega), getElem?_of_lt v (2 * i + 1) 0 (by omega), hx] at this
  simpa using this.symm

theorem chain_queries (S : CodeScheme E) (word : ℕ → List E → List E) (good : GoodCode S word) (env : BfEnv B E D) (numVars : ℕ)
    (hn : numVars ≤ S.maxLog) (final : List E) {oracle cs : List E} {trees : List (MerkleTree B E D)} {roots : List D}
    (h : OracleChain S env.hasher final oracle cs trees roots) :
    ∀ (i x : ℕ), oracle.length = 2 ^ (numVars + S.rateLog - i) → x < oracle.length → i + cs.length + S.basecodeLog = numVars →
      ∃ qs, bfGetOracle trees (x / 2) = some qs ∧ checkPaths env.hasher qs roots = some () ∧
        queryFold S env.embed numVars final cs i qs (x ||| 1) (oracle.getD (2 * (x / 2)) 0, oracle.getD (2 * (x / 2) + 1) 0) = some () := by
  induction h with
  | last oracle c hfold =>
    intro i x hl hx hi
    simp only [List.length_singleton] at hi
    obtain ⟨n, hn'⟩ : ∃ n, n = numVars + S.rateLog - (i + 1) := ⟨_, rfl⟩
    have hsh : numVars + S.rateLog - i = n + 1 := by omega
    rw [hsh] at hl
    have hp : 2 ^ (n + 1) = 2 * 2 ^ n := by rw [pow_succ]; ring
    obtain ⟨cf, c1, c2⟩ := good.coeffs n (x / 2) (by omega) (by omega) (by omega)
    have hat := (foldCodeword_at S n oracle final hl c hfold).2 (x / 2) cf (by omega) c1
    refine ⟨[], rfl, rfl, ?_⟩
    simp only [queryFold]
    rw [or_one]
    simp only [Option.bind_eq_bind, checkedSub, Nat.shiftRight_one, show 1 ≤ 2 * (x / 2) + 1 by omega, if_true, Option.bind_some,
      show i + 1 ≤ numVars + S.rateLog by omega, show (2 * (x / 2) + 1 - 1) / 2 = x / 2 by omega,
      show (2 * (x / 2) + 1) / 2 = x / 2 by omega, ← hn', c2, hat]
  | step oracle oracle' c c' cs tree root trees roots hfold ht hroot hrest ih =>
    intro i x hl hx hi
    simp only [List.length_cons] at hi
    obtain ⟨n, hn'⟩ : ∃ n, n = numVars + S.rateLog - (i + 1) := ⟨_, rfl⟩
    have hsh : numVars + S.rateLog - i = n + 1 := by omega
    rw [hsh] at hl
    have hp : 2 ^ (n + 1) = 2 * 2 ^ n := by rw [pow_succ]; ring
    obtain ⟨cf, c1, c2⟩ := good.coeffs n (x / 2) (by omega) (by omega) (by omega)
    obtain ⟨hl', hat⟩ := foldCodeword_at S n oracle oracle' hl c hfold
    have hat := hat (x / 2) cf (by omega) c1
    have hx' : x / 2 < 2 ^ n := by omega
    obtain ⟨qs, i1, i2, i3⟩ := ih (i + 1) (x / 2) (by rw [hl', hn']) (by rw [hl']; exact hx') (by simp; omega)
    obtain ⟨n', hn2⟩ : ∃ n', n = n' + 1 := ⟨n - 1, by omega⟩
    rw [hn2] at hl' hx'
    obtain ⟨q, q1, q2, q3, q4⟩ := bfGetPair_spec env.hasher oracle' n' (x / 2) hl' hx' tree root ht hroot
    refine ⟨q :: qs, ?_, ?_, ?_⟩
    · simp only [bfGetOracle]
      rw [q1, Nat.shiftRight_one, i1]
      rfl
    · simp only [checkPaths]
      rw [q4, i2]
      rfl
    · simp only [queryFold]
      rw [or_one x]
      simp only [Option.bind_eq_bind, checkedSub, Nat.shiftRight_one, show 1 ≤ 2 * (x / 2) + 1 by omega, if_true, Option.bind_some,
        show i + 1 ≤ numVars + S.rateLog by omega, show (2 * (x / 2) + 1 - 1) / 2 = x / 2 by omega,
        show (2 * (x / 2) + 1) / 2 = x / 2 by omega, ← hn', c2, List.head?_cons, List.tail_cons, q2, PointPair.toExt, Nat.and_one_is_mod]
      rw [if_pos, i3]
      rw [getElem?_of_lt oracle' (x / 2) 0 (by omega)] at hat
      rw [← Option.some.inj hat]
      by_cases hpar : x / 2 % 2 = 0
      · rw [if_pos hpar]; congr 1; omega
      · rw [if_neg hpar]; congr 1; omega

/-! ### The whole opening -/

theorem eqPoly_snoc (x y : List E) (a b : E) (h : x.length = y.length) :
    eqPoly (x ++ [a]) (y ++ [b]) = eqPoly x y * (a * b + (1 - a) * (1 - b)) := by
  induction x generalizing y with
  | nil =>
    obtain rfl : y = [] := List.length_eq_zero_iff.mp h.symm
    simp [eqPoly]
  | cons u us ih =>
    rcases y with _ | ⟨w, ws⟩
    · simp at h
    · simp only [List.cons_append, eqPoly]
      rw [ih ws (by simpa using h)]
      ring

theorem eqPoly_append (x y x' y' : List E) (h : x.length = y.length) : eqPoly (x ++ x') (y ++ y') = eqPoly x y * eqPoly x' y' := by
  induction x generalizing y with
  | nil =>
    obtain rfl : y = [] := List.length_eq_zero_iff.mp h.symm
    simp [eqPoly]
  | cons u us ih =>
    rcases y with _ | ⟨w, ws⟩
    · simp at h
    · simp only [List.cons_append, eqPoly]
      rw [ih ws (by simpa using h), mul_assoc]

theorem fixHigh_chi (p : List E) : ∀ (cs q : List E) (k : E), q.length = cs.length →
    fixHigh ((List.range (2 ^ (p.length + cs.length))).map fun i => k * chi (p ++ q) i) cs
      = (List.range (2 ^ p.length)).map fun i => k * eqPoly q cs.reverse * chi p i := by
  intro cs
  induction cs with
  | nil =>
    intro q k hq
    obtain rfl : q = [] := List.length_eq_zero_iff.mp hq
    simp [fixHigh, eqPoly]
  | cons c cs ih =>
    intro q k hq
    obtain ⟨q', z, rfl⟩ : ∃ q' z, q = q' ++ [z] := by
      rcases List.eq_nil_or_concat q with h | ⟨a, b, h⟩
      · subst h; simp at hq
      · exact ⟨a, b, by rw [h, List.concat_eq_append]⟩
    have hq' : q'.length = cs.length := by simpa using hq
    obtain ⟨m, hm⟩ : ∃ m, m = p.length + cs.length := ⟨_, rfl⟩
    have hp : 2 ^ (m + 1) = 2 * 2 ^ m := by rw [pow_succ]; ring
    rw [List.length_cons, ← add_assoc, ← hm]
    rw [fixHigh_cons _ m (by simp) c cs]
    have hstep : highFix c (2 ^ m) ((List.range (2 ^ (m + 1))).map fun i => k * chi (p ++ (q' ++ [z])) i)
        = (List.range (2 ^ m)).map fun i => (k * (z * c + (1 - z) * (1 - c))) * chi (p ++ q') i := by
      apply list_ext_getD 0
      · rw [highFix_length _ _ _ (by simp; omega)]; simp
      · intro i hi
        rw [highFix_length _ _ _ (by simp; omega)] at hi
        have hml : 2 ^ (p ++ q').length = 2 ^ m := by rw [List.length_append, hq', hm]
        rw [highFix_getD _ _ _ (by simp; omega) _ hi, getD_map_range' _ _ _ _ (by omega), getD_map_range' _ _ _ _ (by omega),
          getD_map_range' _ _ _ _ hi, ← List.append_assoc]
        have := chi_snoc (p ++ q') z i (by rw [hml]; exact hi)
        rw [hml] at this
        rw [this.1, this.2]
        ring
    rw [hstep, hm, ih q' _ hq', List.reverse_cons, eqPoly_snoc _ _ _ _ (by simp [hq'])]
    apply List.map_congr_left
    intro i _
    ring

theorem bfMessage_eq (S : CodeScheme E) (n : ℕ) (hn : 0 < n) (f : List E) (hf : f.length = 2 ^ n) :
    bfMessage S f = some (codeMessage S n (interpC f)) := by
  obtain ⟨h1, h2, _⟩ := interpC_spec n hn f hf
  unfold bfMessage codeMessage
  rw [h1]
  simp only [Option.bind_eq_bind, Option.bind_some]
  by_cases hs : S.leftRight = true
  · rw [if_pos hs, if_pos hs]
  · rw [if_neg hs, if_neg hs, reverseIndexBits_eq 0 n _ h2]

theorem open_full (S : CodeScheme E) (word : ℕ → List E → List E) (good : GoodCode S word) (env : BfEnv B E D) (hb : 0 < S.basecodeLog)
    (n : ℕ) (hn : S.basecodeLog < n) (hmax : n ≤ S.maxLog) (f point : List E) (hf : f.length = 2 ^ n) (hp : point.length = n) (ts : env.T.State) :
    ∃ comm root proof ts', bfCommit S env.hasher n f = some comm ∧ comm.tree.root = some root ∧
      bfOpen S env f n comm point ts = some (proof, ts') ∧ bfVerify S env root (some n) point (mle f point) proof ts = some ts' ∧
      proof.queries.length = S.numQueries ∧ proof.messages.length = n - S.basecodeLog := by
  obtain ⟨r, rfl⟩ : ∃ r, n = S.basecodeLog + r + 1 := ⟨n - S.basecodeLog - 1, by omega⟩
  obtain ⟨n, hne⟩ : ∃ n, n = S.basecodeLog + r + 1 := ⟨_, rfl⟩
  obtain ⟨i1, i2, i3⟩ := interpC_spec n (by omega) f (by rw [hf, hne])
  obtain ⟨cw, e1, e2, e3⟩ := good.encode n (interpC f) (by omega) (by omega) i2
  have hwl := good.length n (interpC f) (by omega) (by omega) i2
  obtain ⟨O, hO⟩ : ∃ O, O = word n (interpC f) := ⟨_, rfl⟩
  rw [← hO] at e3 hwl
  obtain ⟨tree, root, _, t1, t2, _, _⟩ := Props.C42_single_ext env.hasher O 0 (n + S.rateLog - 1) 0
    (by rw [hwl]; congr 1; omega) (Nat.two_pow_pos _)
  have hleaves : tree.leaves = [.ext O] := by
    unfold MerkleTree.fromBatchLeaves at t1
    rcases hm : merkelize env.hasher [FieldType.ext O] with _ | inner
    · rw [hm] at t1; cases t1
    · rw [hm] at t1
      cases t1
      rfl
  have hcommit : bfCommit S env.hasher n f = some ⟨tree, bitrev 0 n f, n⟩ := by
    unfold bfCommit
    rw [if_neg (by omega), if_neg (by omega), bfMessage_eq S n (by omega) f (by rw [hf, hne])]
    simp only [Option.bind_eq_bind, Option.bind_some, e1]
    rw [reverseIndexBits_eq 0 n f (by rw [hf, hne]), reverseIndexBits_eq 0 _ cw e2, e3]
    simp only [Option.bind_some, t1]
  have hcw : (⟨tree, bitrev 0 n f, n⟩ : BfCommitted B E D).codeword = some O := by
    unfold BfCommitted.codeword
    simp only [hleaves]
  have hbe : buildEq point = (List.range (2 ^ n)).map fun i => 1 * chi point i := by
    unfold buildEq
    rw [buildEqSeq_spec point _ (by simp), hp, ← hne]
    simp
  obtain ⟨g, hg⟩ : ∃ g, g = (List.range (2 ^ n)).map fun i => 1 * chi point i := ⟨_, rfl⟩
  rw [← hg] at hbe
  have hgl : g.length = 2 ^ n := by rw [hg]; simp
  have hsh : S.basecodeLog + r + 1 = n := hne.symm
  obtain ⟨v, v1, v2⟩ := level_interp (S.basecodeLog + r) f
  obtain ⟨w, w1, w2⟩ := level_interp (S.basecodeLog + r) g
  rw [hsh] at v1 w1
  obtain ⟨last, l1, _, _⟩ := level_message (S.basecodeLog + r) f g v w hf (by rw [hgl, hne]) v2 w2
  obtain ⟨cp, cs, ts', c1, c2, c3, c4, c5, c6, c7, c8⟩ := bfCommitLoop_spec S word good env hb r f g v w last ts hmax hf (by rw [hgl, hne]) v2 w2 l1
  rw [hsh, ← hO] at c1 c8
  obtain ⟨R, hR⟩ : ∃ R, R = bfSampleQueries env.T S.numQueries cp.ts := ⟨_, rfl⟩
  have hphase : bfCommitPhase S env point ⟨tree, bitrev 0 n f, n⟩ (r + 1) ts = some cp := by
    unfold bfCommitPhase
    rw [hcw, hbe, reverseIndexBits_eq 0 n g hgl]
    simp only [Option.bind_eq_bind, Option.bind_some, bfFirstRound]
    rw [v1, w1]
    simp only [Option.bind_some, l1, c1]
  have hquery : ∀ x, x < O.length → ∃ q, bfGetQuery (⟨tree, bitrev 0 n f, n⟩ : BfCommitted B E D) cp.trees x = some (x, q) ∧
      ∀ final, final = word S.basecodeLog (interpC (fixHigh f cs)) → q.check S env cs n final cp.roots root x = some () := by
    intro x hx
    rw [hwl] at hx
    obtain ⟨q, q1, q2, q3, q4⟩ := bfGetPair_spec env.hasher O (n + S.rateLog - 1) x (by rw [hwl]; congr 1; omega)
      (by rw [show n + S.rateLog - 1 + 1 = n + S.rateLog by omega]; exact hx) tree root t1 t2
    obtain ⟨qs, s1, s2, s3⟩ := chain_queries S word good env n (by omega) _ c8 0 x (by rw [hwl, Nat.sub_zero]) (by rw [hwl]; exact hx) (by omega)
    refine ⟨⟨qs, q⟩, ?_, ?_⟩
    · unfold bfGetQuery
      rw [q1, Nat.shiftRight_one, s1]
      rfl
    · intro final hfin
      subst hfin
      unfold SingleQuery.check
      simp only [s2, q4, q2, PointPair.toExt, Option.bind_eq_bind, Option.bind_some, s3]
  have hqs : ∀ xs : List E, ∃ qs, (xs.mapM fun x => bfGetQuery (⟨tree, bitrev 0 n f, n⟩ : BfCommitted B E D) cp.trees (env.toUsize x % O.length)) = some qs ∧
      qs.length = xs.length ∧
      ∀ final, final = word S.basecodeLog (interpC (fixHigh f cs)) →
        checkQueries S env cs n final cp.roots root qs (xs.map fun x => env.toUsize x % 2 ^ (n + S.rateLog)) = some () := by
    intro xs
    induction xs with
    | nil => exact ⟨[], rfl, rfl, fun _ _ => rfl⟩
    | cons x xs ih =>
      obtain ⟨qs, h1, h2, h3⟩ := ih
      obtain ⟨q, q1, q2⟩ := hquery (env.toUsize x % O.length) (Nat.mod_lt _ (by rw [hwl]; exact Nat.two_pow_pos _))
      refine ⟨(env.toUsize x % O.length, q) :: qs, ?_, by simp [h2], ?_⟩
      · rw [List.mapM_cons, q1, h1]; rfl
      · intro final hfin
        simp only [List.map_cons, checkQueries]
        rw [if_pos (by rw [hwl]), q2 final hfin, h3 final hfin]
        rfl
  obtain ⟨qs, qs1, qs2, qs3⟩ := hqs R.1
  have hfl : (fixHigh f cs).length = 2 ^ S.basecodeLog := by
    rw [fixHigh_length f cs _ hf (by omega)]; congr 1; omega
  have hopen : bfOpen S env f n ⟨tree, bitrev 0 n f, n⟩ point ts = some (⟨cp.messages, cp.roots, cp.finalMessage, qs, []⟩, R.2) := by
    unfold bfOpen
    rw [if_neg (by show ¬ n ≤ _; omega)]
    unfold checkedSub
    rw [if_pos (by omega), show n - S.basecodeLog = r + 1 by omega]
    simp only [Option.bind_eq_bind, Option.bind_some]
    rw [hphase]
    simp only [Option.bind_some, hcw, ← hR, qs1]
  have hRl : R.1.length = S.numQueries := by
    rw [hR]
    generalize cp.ts = t
    generalize S.numQueries = m
    induction m generalizing t with
    | zero => rfl
    | succ m ih => simp [bfSampleQueries, ih]
  rw [hsh]
  refine ⟨⟨tree, bitrev 0 n f, n⟩, root, ⟨cp.messages, cp.roots, cp.finalMessage, qs, []⟩, R.2, hcommit, t2, hopen, ?_, ?_, ?_⟩
  · unfold bfVerify
    rw [if_neg (by simp)]
    unfold bfVerifyFull
    rw [if_pos (Or.inr (by rw [hp, hne]))]
    unfold checkedSub
    rw [if_pos (by omega), hp, show S.basecodeLog + r + 1 - S.basecodeLog = r + 1 by omega]
    simp only [Option.bind_eq_bind, Option.bind_some]
    rw [c5]
    simp only [Option.bind_some, c2, ← c6, ← hR, hsh, show n - (r + 1) = S.basecodeLog by omega]
    have hdl : (point.drop S.basecodeLog).length = r + 1 := by rw [List.length_drop]; omega
    rw [eqXYEval_eq _ _ (by intro h; rw [h] at hdl; simp at hdl) (by rw [hdl, List.length_reverse, c2])]
    simp only [Option.bind_some]
    unfold bfQueryPhase bfFinalCodeword
    simp only
    rw [c4, bfMessage_eq S S.basecodeLog hb _ hfl]
    obtain ⟨sw, s1, s2, s3⟩ := good.small (interpC (fixHigh f cs)) (interpC_spec _ hb _ hfl).2.1
    simp only [Option.bind_eq_bind, Option.bind_some, s1]
    rw [reverseIndexBits_eq 0 _ sw s2, s3]
    simp only [Option.bind_some]
    rw [qs3 _ rfl]
    simp only [Option.bind_some]
    have htake : (point.take S.basecodeLog).length = S.basecodeLog := by rw [List.length_take]; omega
    have hpartial : (buildEq (point.take S.basecodeLog)).map (· * eqPoly (point.drop S.basecodeLog) cs.reverse) = fixHigh g cs := by
      have := fixHigh_chi (point.take S.basecodeLog) cs (point.drop S.basecodeLog) 1 (by rw [hdl, c2])
      rw [List.take_append_drop, htake, c2, ← add_assoc, hsh, ← hg] at this
      rw [this]
      unfold buildEq
      rw [buildEqSeq_spec _ _ (by simp), htake, List.map_map]
      apply List.map_congr_left
      intro i _
      simp only [Function.comp]
      ring
    rw [hpartial]
    have hgfl : (fixHigh g cs).length = 2 ^ S.basecodeLog := by
      rw [fixHigh_length g cs n hgl (by omega)]; congr 1; omega
    have hinner : innerProduct (fixHigh f cs) (fixHigh g cs) = some (dotN (2 ^ S.basecodeLog) (fixHigh f cs) (fixHigh g cs)) := by
      unfold innerProduct
      rw [if_pos (by rw [hfl, hgfl])]
      congr 1
      have : List.zipWith (· * ·) (fixHigh f cs) (fixHigh g cs)
          = (List.range (2 ^ S.basecodeLog)).map fun i => (fixHigh f cs).getD i 0 * (fixHigh g cs).getD i 0 := by
        apply list_ext_getD 0
        · simp [hfl, hgfl]
        · intro i hi
          simp only [List.length_zipWith, hfl, hgfl, min_self] at hi
          rw [zipWith_getD _ _ _ _ (by omega) (by omega), getD_map_range' _ _ _ _ hi]
      rw [this, sum_map_range]
      rfl
    rw [hinner]
    simp only [Option.bind_some]
    have hclaim : dotN (2 ^ (S.basecodeLog + r + 1)) f g = mle f point := by
      unfold dotN mle
      rw [hp]
      refine Finset.sum_congr rfl fun i hi => ?_
      rw [hg, getD_map_range' _ _ _ _ (by rw [hne]; exact Finset.mem_range.mp hi), one_mul]
    rw [hclaim] at c7
    rw [c7]
    rfl
  · rw [qs2, hRl]
  · rw [c3]; omega

end Lemmas
