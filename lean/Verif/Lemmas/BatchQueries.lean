import Verif.Lemmas.BasefoldBatch
import Verif.Lemmas.LayerNormProof

/-! Opening many polynomials at once: queries of the honest prover. -/

open Spec Model

namespace Lemmas

variable {B E D : Type} [Field E] [DecidableEq E] [DecidableEq D]

theorem mergeOracle_getD (words : List (List E × E)) (oracle : List E) :
    (mergeOracle words oracle).length = oracle.length ∧ ∀ p, p < oracle.length → (mergeOracle words oracle).getD p 0
      = oracle.getD p 0 + ((words.filter fun w => w.1.length = oracle.length).map fun w => w.1.getD p 0 * w.2).sum := by
  unfold mergeOracle
  apply foldl_lin_spec _ _ _ rfl
  intro t ht
  simpa using (List.mem_filter.mp ht).2

/-- The queries to the commitments, at a position of the largest codeword. -/
def CommitQueries (word : ℕ → List E → List E) (N x0 : ℕ) (Q : List (CodeQuery B E D)) (L : List (Item E)) : Prop :=
  ∀ (j : ℕ) (t : Item E), L[j]? = some t → ∃ q : CodeQuery B E D, Q[j]? = some q ∧
    q.points = .ext ((wordOf word t.1 t.2.1).getD (2 * (x0 / 2 ^ (N - t.1) / 2)) 0) ((wordOf word t.1 t.2.1).getD (2 * (x0 / 2 ^ (N - t.1) / 2) + 1) 0) ∧
    q.index = 2 * (x0 / 2 ^ (N - t.1) / 2)

theorem addMatching_spec (word : ℕ → List E → List E) (embed : B → E) (N x0 i : ℕ) (hi : i ≤ N) (Q : List (CodeQuery B E D)) (L : List (Item E))
    (hQ : CommitQueries word N x0 Q L) (p : ℕ) (hp : p = x0 / 2 ^ i / 2) :
    ∀ (L' pre : List (Item E)) (cur : E × E), L = pre ++ L' →
      addMatching embed Q (N - i) (2 * p) pre.length (L'.map fun t => t.1) (L'.map fun t => t.2.2) cur
        = some (cur.1 + ((L'.filter fun t => t.1 = N - i).map fun t => (wordOf word t.1 t.2.1).getD (2 * p) 0 * t.2.2).sum,
          cur.2 + ((L'.filter fun t => t.1 = N - i).map fun t => (wordOf word t.1 t.2.1).getD (2 * p + 1) 0 * t.2.2).sum) := by
  intro L'
  induction L' with
  | nil => intro pre cur _; simp [addMatching]
  | cons t L' ih =>
    intro pre cur hL
    obtain ⟨q, q1, q2, q3⟩ := hQ pre.length t (by rw [hL]; simp)
    have hrec := fun cur => ih (pre ++ [t]) cur (by rw [hL]; simp)
    simp only [List.length_append, List.length_singleton] at hrec
    simp only [List.map_cons, addMatching]
    by_cases hn : t.1 = N - i
    · rw [if_pos hn, q1]
      simp only [Option.bind_eq_bind, Option.bind_some, List.head?_cons, List.tail_cons]
      have hsub : N - t.1 = i := by omega
      rw [hsub, ← hp] at q2 q3
      rw [if_pos (by rw [q3]), hrec, q2, List.filter_cons_of_pos (by simp [hn])]
      simp only [PointPair.toExt, List.map_cons, List.sum_cons, add_assoc]
    · rw [if_neg hn, List.tail_cons, hrec, List.filter_cons_of_neg (by simp [hn])]

theorem addMatchingLast_none (embed : B → E) (Q : List (CodeQuery B E D)) (v next : ℕ) :
    ∀ (vars : List ℕ) (coeffs : List E) (k : ℕ) (res : E), (∀ n ∈ vars, n ≠ v) → addMatchingLast embed Q v next k vars coeffs res = some res := by
  intro vars
  induction vars with
  | nil => intro coeffs k res _; rfl
  | cons n vars ih =>
    intro coeffs k res h
    simp only [addMatchingLast]
    rw [if_neg (h n (by simp)), ih _ _ _ (fun m hm => h m (by simp [hm]))]

theorem batch_chain_queries (S : CodeScheme E) (word : ℕ → List E → List E) (good : GoodCode S word) (hb : 0 < S.basecodeLog) (env : BfEnv B E D)
    (L : List (Item E)) (hL : ItemsOk S L) (N : ℕ) (hN : N ≤ S.maxLog) (final : List E) (x0 : ℕ) (Q : List (CodeQuery B E D))
    (hQ : CommitQueries word N x0 Q L) {oracle cs : List E} {trees : List (MerkleTree B E D)} {roots : List D}
    (h : BatchChain S env.hasher (itemWords word L) final oracle cs trees roots) :
    ∀ (i x : ℕ), oracle.length = 2 ^ (N + S.rateLog - i) → x < oracle.length → x = x0 / 2 ^ i → i + cs.length + S.basecodeLog = N →
      ∃ qs, bfGetOracle trees (x / 2) = some qs ∧ checkPaths env.hasher qs roots = some () ∧
        batchQueryFold S env.embed ⟨N, final, L.map fun t => t.1, L.map fun t => t.2.2, Q⟩ cs i qs (x ||| 1)
          (oracle.getD (2 * (x / 2)) 0, oracle.getD (2 * (x / 2) + 1) 0) = some () := by
  -- the pair after the matching commitments have been added
  have hadd : ∀ (oracle : List E) (i x n : ℕ), oracle.length = 2 ^ (n + 1) → n + 1 = N + S.rateLog - i → x < 2 ^ (n + 1) → x = x0 / 2 ^ i → i ≤ N →
      addMatching env.embed Q (N - i) (2 * (x / 2)) 0 (L.map fun t => t.1) (L.map fun t => t.2.2)
        (oracle.getD (2 * (x / 2)) 0, oracle.getD (2 * (x / 2) + 1) 0)
      = some ((mergeOracle (itemWords word L) oracle).getD (2 * (x / 2)) 0, (mergeOracle (itemWords word L) oracle).getD (2 * (x / 2) + 1) 0) := by
    intro oracle i x n hl hn hx hx0 hi
    have hp : 2 ^ (n + 1) = 2 * 2 ^ n := by rw [pow_succ]; ring
    have := addMatching_spec word env.embed N x0 i hi Q L hQ (x / 2) (by rw [hx0]) L []
      (oracle.getD (2 * (x / 2)) 0, oracle.getD (2 * (x / 2) + 1) 0) rfl
    rw [List.length_nil] at this
    rw [this, (mergeOracle_getD _ oracle).2 _ (by rw [hl]; omega), (mergeOracle_getD _ oracle).2 _ (by rw [hl]; omega), hl, hn,
      show N + S.rateLog - i = N - i + S.rateLog by omega, itemWords_filter S word good hb L hL (N - i), List.map_map, List.map_map]
    rfl
  induction h with
  | last oracle c hfold =>
    intro i x hl hx hx0 hi
    simp only [List.length_singleton] at hi
    obtain ⟨n, hn'⟩ : ∃ n, n = N + S.rateLog - (i + 1) := ⟨_, rfl⟩
    have hsh : N + S.rateLog - i = n + 1 := by omega
    rw [hsh] at hl
    have hp : 2 ^ (n + 1) = 2 * 2 ^ n := by rw [pow_succ]; ring
    obtain ⟨cf, c1, c2⟩ := good.coeffs n (x / 2) (by omega) (by omega) (by omega)
    have hml : (mergeOracle (itemWords word L) oracle).length = 2 ^ (n + 1) := by rw [(mergeOracle_getD _ oracle).1, hl]
    have hat := (foldCodeword_at S n _ final hml c hfold).2 (x / 2) cf (by omega) c1
    have ha := hadd oracle i x n hl hsh.symm (by omega) hx0 (by omega)
    refine ⟨[], rfl, rfl, ?_⟩
    simp only [batchQueryFold, batchFoldStep]
    rw [or_one]
    simp only [Option.bind_eq_bind, checkedSub, Nat.shiftRight_one, show 1 ≤ 2 * (x / 2) + 1 by omega, if_true, Option.bind_some,
      show 2 * (x / 2) + 1 - 1 = 2 * (x / 2) by omega, show i ≤ N by omega, ha,
      show i + 1 ≤ N + S.rateLog by omega, show 2 * (x / 2) / 2 = x / 2 by omega, show i + 1 ≤ N by omega,
      show (2 * (x / 2) + 1) / 2 = x / 2 by omega, ← hn', c2]
    rw [addMatchingLast_none]
    · simp only [Option.bind_some, hat, if_true]
    · intro m hm
      obtain ⟨t, ht, rfl⟩ := List.mem_map.mp hm
      have := hL.low t ht
      omega
  | step oracle oracle' c c' cs tree root trees roots hfold ht hroot hrest ih =>
    intro i x hl hx hx0 hi
    simp only [List.length_cons] at hi
    obtain ⟨n, hn'⟩ : ∃ n, n = N + S.rateLog - (i + 1) := ⟨_, rfl⟩
    have hsh : N + S.rateLog - i = n + 1 := by omega
    rw [hsh] at hl
    have hp : 2 ^ (n + 1) = 2 * 2 ^ n := by rw [pow_succ]; ring
    obtain ⟨cf, c1, c2⟩ := good.coeffs n (x / 2) (by omega) (by omega) (by omega)
    have hml : (mergeOracle (itemWords word L) oracle).length = 2 ^ (n + 1) := by rw [(mergeOracle_getD _ oracle).1, hl]
    obtain ⟨hl', hat⟩ := foldCodeword_at S n _ oracle' hml c hfold
    have hat := hat (x / 2) cf (by omega) c1
    have ha := hadd oracle i x n hl hsh.symm (by omega) hx0 (by omega)
    have hx' : x / 2 < 2 ^ n := by omega
    obtain ⟨qs, i1, i2, i3⟩ := ih (i + 1) (x / 2) (by rw [hl', hn']) (by rw [hl']; exact hx') (by rw [hx0, Nat.div_div_eq_div_mul, pow_succ]) (by simp; omega)
    obtain ⟨n', hn2⟩ : ∃ n', n = n' + 1 := ⟨n - 1, by omega⟩
    rw [hn2] at hl' hx'
    obtain ⟨q, q1, q2, q3, q4⟩ := bfGetPair_spec env.hasher oracle' n' (x / 2) hl' hx' tree root ht hroot
    refine ⟨q :: qs, ?_, ?_, ?_⟩
    · simp only [bfGetOracle]
      rw [q1, Nat.shiftRight_one, i1]
      rfl
    · simp only [checkPaths]
      rw [q4, i2]
      rfl
    · simp only [batchQueryFold, batchFoldStep]
      rw [or_one x]
      simp only [Option.bind_eq_bind, checkedSub, Nat.shiftRight_one, show 1 ≤ 2 * (x / 2) + 1 by omega, if_true, Option.bind_some,
        show 2 * (x / 2) + 1 - 1 = 2 * (x / 2) by omega, show i ≤ N by omega, ha,
        show i + 1 ≤ N + S.rateLog by omega, show 2 * (x / 2) / 2 = x / 2 by omega,
        show (2 * (x / 2) + 1) / 2 = x / 2 by omega, ← hn', c2, List.head?_cons, List.tail_cons, q2, PointPair.toExt, Nat.and_one_is_mod]
      rw [if_pos, i3]
      rw [getElem?_of_lt oracle' (x / 2) 0 (by omega)] at hat
      rw [← Option.some.inj hat]
      by_cases hpar : x / 2 % 2 = 0
      · rw [if_pos hpar]; congr 1; omega
      · rw [if_neg hpar]; congr 1; omega

/-! ### The table of the sumcheck -/

theorem revBits_mod_low (n : ℕ) : ∀ (d p : ℕ), revBits (n + d) p % 2 ^ n = revBits n (p / 2 ^ d) := by
  intro d
  induction d with
  | zero => intro p; simp [Nat.mod_eq_of_lt (revBits_lt n p)]
  | succ d ih =>
    intro p
    have : revBits (n + (d + 1)) p = p % 2 * 2 ^ (n + d) + revBits (n + d) (p / 2) := rfl
    rw [this, pow_add, show p % 2 * (2 ^ n * 2 ^ d) = 2 ^ n * (p % 2 * 2 ^ d) by ring, Nat.mul_add_mod, ih, Nat.div_div_eq_div_mul, pow_succ, mul_comm 2]

/-- The batched table. -/
def batchTable (L : List (Item E)) (N : ℕ) : List E := (List.range (2 ^ N)).map fun j => (L.map fun t => t.2.1.getD (j % 2 ^ t.1) 0 * t.2.2).sum

theorem addRepeated_spec (N n : ℕ) (hn : n ≤ N) (acc f : List E) (c : E) (hacc : acc.length = 2 ^ N) (hf : f.length = 2 ^ n) :
    addRepeated N (bitrev 0 N acc) (bitrev 0 n f) c
      = some (bitrev 0 N ((List.range (2 ^ N)).map fun j => acc.getD j 0 + f.getD (j % 2 ^ n) 0 * c)) := by
  obtain ⟨d, rfl⟩ : ∃ d, N = n + d := ⟨N - n, by omega⟩
  have hpow : 2 ^ (n + d) = 2 ^ n * 2 ^ d := pow_add _ _ _
  have hd := Nat.two_pow_pos d
  unfold addRepeated
  rw [bitrev_length, log2Strict_pow]
  simp only [Option.bind_eq_bind, Option.bind_some, checkedSub, if_pos hn, Nat.add_sub_cancel_left, Option.some.injEq]
  obtain ⟨A, hA⟩ : ∃ A, A = bitrev 0 (n + d) acc := ⟨_, rfl⟩
  obtain ⟨b, hb⟩ : ∃ b, b = bitrev 0 n f := ⟨_, rfl⟩
  have hAl : A.length = 2 ^ d * 2 ^ n := by rw [hA, bitrev_length, hpow, mul_comm]
  have hbl : b.length = 2 ^ n := by rw [hb, bitrev_length]
  rw [← hA, ← hb, chunks_eq (2 ^ d) (2 ^ n) hd A hAl]
  have hdrop : ((List.range (2 ^ n)).map fun i => (A.drop (2 ^ d * i)).take (2 ^ d)).drop (2 ^ n) = [] := by
    rw [List.drop_eq_nil_iff]; simp
  rw [hdrop, List.flatten_nil, List.append_nil]
  have hzip : List.zipWith (fun (rs : List E) (v : E) => rs.map (· + v * c)) ((List.range (2 ^ n)).map fun i => (A.drop (2 ^ d * i)).take (2 ^ d)) b
      = (List.range (2 ^ n)).map fun i => (List.range (2 ^ d)).map fun r => A.getD (2 ^ d * i + r) 0 + b.getD i 0 * c := by
    apply List.ext_getElem
    · simp [hbl]
    · intro i h1 h2
      simp only [List.length_map, List.length_range] at h2
      simp only [List.getElem_zipWith, List.getElem_map, List.getElem_range]
      have hle : 2 ^ d * i + 2 ^ d ≤ 2 ^ d * 2 ^ n := by
        calc 2 ^ d * i + 2 ^ d = 2 ^ d * (i + 1) := by ring
          _ ≤ 2 ^ d * 2 ^ n := Nat.mul_le_mul_left _ h2
      apply list_ext_getD 0
      · simp only [List.length_map, List.length_take, List.length_drop, List.length_range, hAl]; omega
      · intro r hr
        simp only [List.length_map, List.length_take, List.length_drop, hAl] at hr
        rw [getD_map_range' _ _ _ _ (by omega)]
        have hrA : 2 ^ d * i + r < A.length := by rw [hAl]; omega
        simp only [List.getD_eq_getElem?_getD, List.getElem?_map, List.getElem?_take, List.getElem?_drop, if_pos (show r < 2 ^ d by omega)]
        rw [List.getElem?_eq_getElem hrA, List.getElem?_eq_getElem (show i < b.length by omega)]
        rfl
  rw [hzip]
  have hg : ∀ g ∈ (List.range (2 ^ n)).map (fun i => (List.range (2 ^ d)).map fun r => A.getD (2 ^ d * i + r) 0 + b.getD i 0 * c), g.length = 2 ^ d := by
    intro g hg
    obtain ⟨i, _, rfl⟩ := List.mem_map.mp hg
    simp
  apply list_ext_getD 0
  · rw [length_flatten' (2 ^ d) _ hg, bitrev_length, List.length_map, List.length_range, hpow]
  · intro p hp
    rw [length_flatten' (2 ^ d) _ hg, List.length_map, List.length_range, ← hpow] at hp
    have hi : p / 2 ^ d < 2 ^ n := by rw [Nat.div_lt_iff_lt_mul hd, ← hpow]; exact hp
    have hr := Nat.mod_lt p hd
    have hsplit : p / 2 ^ d * 2 ^ d + p % 2 ^ d = p := Nat.div_add_mod' p (2 ^ d)
    have := getD_flatten (2 ^ d) _ hg (p / 2 ^ d) (p % 2 ^ d) (0 : E) (by simpa using hi) hr
    rw [hsplit] at this
    rw [this, List.getElem_map, List.getElem_range, getD_map_range' _ _ _ _ hr, mul_comm (2 ^ d), hsplit, hA, hb, bitrev_getD _ _ _ _ hp,
      bitrev_getD _ _ _ _ hp, bitrev_getD _ _ _ _ hi, getD_map_range' _ _ _ _ (revBits_lt _ _), revBits_mod_low]

theorem addRepeated_fold (N : ℕ) (L : List (Item E)) (hlen : ∀ t ∈ L, t.2.1.length = 2 ^ t.1) (hN : ∀ t ∈ L, t.1 ≤ N)
    {γ : Type} (bh : γ → List E) :
    ∀ (l : List (γ × E)) (pre : List (Item E)), (∀ t ∈ pre, t ∈ L) →
      ∀ L', L = pre ++ L' → l.map (fun p => (bh p.1, p.2)) = L'.map (fun t => (bitrev 0 t.1 t.2.1, t.2.2)) →
      l.foldlM (fun acc p => addRepeated N acc (bh p.1) p.2) (bitrev 0 N (batchTable pre N)) = some (bitrev 0 N (batchTable L N)) := by
  intro l
  induction l with
  | nil =>
    intro pre _ L' hL hmap
    have : L' = [] := by
      rcases L' with _ | ⟨a, l⟩
      · rfl
      · simp at hmap
    rw [hL, this, List.append_nil]
    rfl
  | cons p l ih =>
    intro pre hpre L' hL hmap
    rcases L' with _ | ⟨t, L'⟩
    · simp at hmap
    · simp only [List.map_cons, List.cons.injEq, Prod.mk.injEq] at hmap
      obtain ⟨⟨h1, h2⟩, h3⟩ := hmap
      have ht : t ∈ L := by rw [hL]; simp
      rw [List.foldlM_cons, h1, h2, addRepeated_spec N t.1 (hN t ht) _ _ _ (by simp [batchTable]) (hlen t ht)]
      simp only [Option.bind_eq_bind, Option.bind_some]
      have := ih (pre ++ [t]) (by
        intro t' ht'
        rcases List.mem_append.mp ht' with h | h
        · exact hpre t' h
        · rw [List.mem_singleton.mp h]; exact ht) L' (by rw [hL]; simp) h3
      rw [← this]
      congr 2
      unfold batchTable
      apply List.map_congr_left
      intro j hj
      rw [getD_map_range' _ _ _ _ (List.mem_range.mp hj)]
      simp

theorem batchTable_low (L : List (Item E)) (N j : ℕ) (hj : j < 2 ^ N) (hN : ∀ t ∈ L, t.1 ≤ N) :
    (batchTable L N).getD j 0 = ((L.filter fun t => t.1 = N).map fun t => t.2.1.getD j 0 * t.2.2).sum + lowSum L N j := by
  rw [← lowSum_succ L N j hj]
  unfold batchTable lowSum
  rw [getD_map_range' _ _ _ _ hj, List.filter_eq_self.mpr]
  intro t ht
  have := hN t ht
  simp; omega

theorem mle_batchTable (L : List (Item E)) (N : ℕ) (hN : ∀ t ∈ L, t.1 ≤ N) (r : List E) (hr : r.length = N) :
    mle (batchTable L N) r = (L.map fun t => mle t.2.1 (r.take t.1) * t.2.2).sum := by
  unfold batchTable
  rw [mle_map_range N _ r hr]
  induction L with
  | nil => simp
  | cons t L ih =>
    simp only [List.map_cons, List.sum_cons, add_mul, Finset.sum_add_distrib]
    rw [ih (fun t' h' => hN t' (by simp [h']))]
    congr 1
    rw [← Lemmas.mle_take t.1 t.2.1 r (by rw [hr]; exact hN t (by simp)), hr, mle_map_range N _ r hr, Finset.sum_mul]
    exact Finset.sum_congr rfl fun i _ => by ring

end Lemmas
