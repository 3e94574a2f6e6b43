import Verif.Lemmas.BasefoldSound
import Verif.Props.Encoding
import Mathlib.Algebra.Field.ZMod
import Mathlib.Data.ZMod.Basic
import Mathlib.FieldTheory.Finite.GaloisField

/-! C46 and C47: opening one polynomial of the commitment scheme. -/

open Spec Model Lemmas

namespace Props

variable {B E D : Type} [Field E] [DecidableEq E] [DecidableEq D]

/-! ### C47 -/

theorem open_trivial (S : CodeScheme E) (env : BfEnv B E D) (n : ℕ) (hn : 0 < n) (hb : n ≤ S.basecodeLog) (hmax : n ≤ S.maxLog)
    (f point : List E) (hf : f.length = 2 ^ n) (hp : point.length = n) (ts : env.T.State) :
    ∃ comm root proof ts', bfCommit S env.hasher n f = some comm ∧ comm.tree.root = some root ∧
      bfOpen S env f n comm point ts = some (proof, ts') ∧ bfVerify S env root (some n) point (mle f point) proof ts = some ts' := by
  obtain ⟨k, rfl⟩ : ∃ k, n = k + 1 := ⟨n - 1, by omega⟩
  obtain ⟨tree, root, _, t1, t2, _, _⟩ := C42_single_ext env.hasher f 0 k 0 hf (Nat.two_pow_pos _)
  refine ⟨⟨tree, f, k + 1⟩, root, ⟨[], [], [], [], [.ext f]⟩, ts, ?_, t2, ?_, ?_⟩
  · unfold bfCommit
    rw [if_neg (by omega), if_pos hb, t1]
    rfl
  · unfold bfOpen
    rw [if_pos hb]
  · unfold bfVerify
    rw [if_pos (by simp)]
    unfold bfVerifyTrivial
    simp only [t1, t2, Option.bind_eq_bind, Option.bind_some, if_true, List.head?_cons]
    rw [hf, (log2_pow (k + 1)).2, evaluate_eq ⟨k + 1, f⟩ hf point hp]
    simp

/-- C47 for the Reed-Solomon code: for every table of `2^n` values, point, transcript and hash function, `commit`, `open` and `verify` succeed with the value
of the multilinear extension at the point, and prover and verifier end in the same transcript. Above the base code's size the proof has one
message per folded variable and the number of queries of the code. -/
theorem C47_rs (spec : RsSpec) (gen : ℕ → E) (gamma : E) (setupLog maxLog : ℕ)
    (hg : IsPrimitiveRoot (gen (setupLog + spec.rateLog)) (2 ^ (setupLog + spec.rateLog))) (hgamma : gamma ≠ 0) (h2 : (2 : E) ≠ 0)
    (hm : maxLog ≤ setupLog) (hb : spec.basecodeLog ≤ maxLog) (hb0 : 0 < spec.basecodeLog) (env : BfEnv B E D)
    (n : ℕ) (hn : 0 < n) (hmax : n ≤ maxLog) (f point : List E) (hf : f.length = 2 ^ n) (hp : point.length = n) (ts : env.T.State) :
    ∃ S comm root proof ts', rsScheme spec gen gamma setupLog maxLog = some S ∧ bfCommit S env.hasher n f = some comm ∧
      comm.tree.root = some root ∧ bfOpen S env f n comm point ts = some (proof, ts') ∧
      bfVerify S env root (some n) point (mle f point) proof ts = some ts' ∧
      (spec.basecodeLog < n → proof.queries.length = spec.numQueries ∧ proof.messages.length = n - spec.basecodeLog) := by
  obtain ⟨S, e1, e2, e3, e4, e5, e6, good⟩ := rsScheme_good spec gen gamma setupLog maxLog hg hgamma h2 hm hb
  by_cases hc : n ≤ spec.basecodeLog
  · obtain ⟨comm, root, proof, ts', h1, h3, h4, h5⟩ := open_trivial S env n hn (by omega) (by omega) f point hf hp ts
    exact ⟨S, comm, root, proof, ts', e1, h1, h3, h4, h5, fun h => by omega⟩
  · obtain ⟨comm, root, proof, ts', h1, h3, h4, h5, h6, h7⟩ := open_full S _ good env (by omega) n (by omega) (by omega) f point hf hp ts
    exact ⟨S, comm, root, proof, ts', e1, h1, h3, h4, h5, fun _ => ⟨by rw [h6, e5], by rw [h7, e3]⟩⟩

/-- C47 for the random foldable code. -/
theorem C47_basecode (spec : BasecodeSpec) (flat : ℕ → E) (setupLog maxLog : ℕ) (h2 : (2 : E) ≠ 0)
    (hflat : ∀ i, i < 2 ^ (spec.rateLog + setupLog) → flat i ≠ 0) (hpos : 0 < spec.rateLog + setupLog) (hm : maxLog ≤ setupLog)
    (hb : spec.basecodeLog ≤ maxLog) (hb0 : 0 < spec.basecodeLog) (env : BfEnv B E D)
    (n : ℕ) (hn : 0 < n) (hmax : n ≤ maxLog) (f point : List E) (hf : f.length = 2 ^ n) (hp : point.length = n) (ts : env.T.State) :
    ∃ S comm root proof ts', basecodeScheme spec flat setupLog maxLog = some S ∧ bfCommit S env.hasher n f = some comm ∧
      comm.tree.root = some root ∧ bfOpen S env f n comm point ts = some (proof, ts') ∧
      bfVerify S env root (some n) point (mle f point) proof ts = some ts' ∧
      (spec.basecodeLog < n → proof.queries.length = spec.numQueries ∧ proof.messages.length = n - spec.basecodeLog) := by
  obtain ⟨S, e1, e2, e3, e4, e5, e6, good⟩ := basecodeScheme_good spec flat setupLog maxLog h2 hflat hpos hm hb
  by_cases hc : n ≤ spec.basecodeLog
  · obtain ⟨comm, root, proof, ts', h1, h3, h4, h5⟩ := open_trivial S env n hn (by omega) (by omega) f point hf hp ts
    exact ⟨S, comm, root, proof, ts', e1, h1, h3, h4, h5, fun h => by omega⟩
  · obtain ⟨comm, root, proof, ts', h1, h3, h4, h5, h6, h7⟩ := open_full S _ good env (by omega) n (by omega) (by omega) f point hf hp ts
    exact ⟨S, comm, root, proof, ts', e1, h1, h3, h4, h5, fun _ => ⟨by rw [h6, e5], by rw [h7, e3]⟩⟩

/-- A small instance: the field with 17 elements, a toy hash, challenges read off a tape. -/
def toyEnv : BfEnv (ZMod 17) (ZMod 17) (ZMod 17) :=
  { hasher := ⟨fun l => l.foldl (fun acc x => 3 * acc + x) 1, fun a b => 5 * a + b * b + 1, fun e => [e]⟩
    embed := id, T := tape (ZMod 17), appendDigest := fun s _ => s, toUsize := fun x => x.val }

example : (do
    let S ← rsScheme ⟨2, 1, 1⟩ (fun k => (3 : ZMod 17) ^ 2 ^ (4 - k)) 3 3 3
    let f : List (ZMod 17) := [1, 5, 7, 2, 9, 0, 3, 16]
    let comm ← bfCommit S toyEnv.hasher 3 f
    let root ← comm.tree.root
    let proof ← bfOpen S toyEnv f 3 comm [2, 4, 11] [3, 8, 15, 9, 1, 2]
    let good ← bfVerify S toyEnv root (some 3) [2, 4, 11] (mle f [2, 4, 11]) proof.1 [3, 8, 15, 9, 1, 2]
    some (proof.1.messages.length, proof.1.queries.length, good,
      (bfVerify S toyEnv root (some 3) [2, 4, 11] (mle f [2, 4, 11] + 1) proof.1 [3, 8, 15, 9, 1, 2]).isNone))
    = some (2, 2, [1, 2], true) := by decide +kernel

/-! ### C46: what acceptance does not imply -/

theorem bfVerify_drop_queries (S : CodeScheme E) (env : BfEnv B E D) (root root' : D) (n : Option ℕ) (point : List E) (y : E)
    (proof : BfProof B E D) (ht : proof.trivial = []) (ts ts' : env.T.State) (h : bfVerify S env root n point y proof ts = some ts') :
    bfVerify S env root' n point y { proof with queries := [] } ts = some ts' := by
  unfold bfVerify at h ⊢
  simp only [ht, ne_eq, not_true_eq_false, if_false] at h ⊢
  unfold bfVerifyFull at h ⊢
  by_cases hn : n = none ∨ n = some point.length
  · rw [if_pos hn] at h ⊢
    simp only [Option.bind_eq_bind, Option.bind_eq_some_iff] at h ⊢
    obtain ⟨r, h1, c, h2, cf, h3, u, h4, h5⟩ := h
    refine ⟨r, h1, c, h2, cf, h3, (), ?_, h5⟩
    unfold bfQueryPhase at h4 ⊢
    simp only [Option.bind_eq_bind, Option.bind_eq_some_iff] at h4 ⊢
    obtain ⟨cw, g1, _, _, fin, g3, g4⟩ := h4
    exact ⟨cw, g1, (), by simp [checkQueries], fin, g3, g4⟩
  · rw [if_neg hn] at h; cases h

theorem forge_without_queries (S : CodeScheme E) (word : ℕ → List E → List E) (good : GoodCode S word) (hb0 : 0 < S.basecodeLog)
    (env : BfEnv B E D) (n : ℕ) (hn : S.basecodeLog < n) (hmax : n ≤ S.maxLog) (root : D) (point : List E) (hp : point.length = n) (y : E)
    (ts : env.T.State) :
    ∃ proof ts', proof.queries = [] ∧ proof.trivial = [] ∧ bfVerify S env root (some n) point y proof ts = some ts' := by
  obtain ⟨comm, r, proof, ts', hcommit, _, h3, h4, _, _⟩ := open_full S word good env hb0 n hn hmax (List.replicate (2 ^ n) y) point (by simp) hp ts
  have ht : proof.trivial = [] := by
    unfold bfOpen at h3
    by_cases hc : comm.numVars ≤ S.basecodeLog
    · exfalso
      unfold bfCommit at hcommit
      rw [if_neg (by omega), if_neg (by omega)] at hcommit
      simp only [Option.bind_eq_bind, Option.bind_eq_some_iff] at hcommit
      obtain ⟨_, _, _, _, _, _, _, _, _, _, h⟩ := hcommit
      obtain rfl := Option.some.inj h
      simp only at hc
      omega
    · rw [if_neg hc] at h3
      simp only [Option.bind_eq_bind, Option.bind_eq_some_iff] at h3
      obtain ⟨_, _, _, _, _, _, _, _, h⟩ := h3
      have := congrArg Prod.fst (Option.some.inj h)
      simp only at this
      rw [← this]
  have hv := bfVerify_drop_queries S env r root (some n) point _ proof ht ts ts' h4
  have hmle : mle (List.replicate (2 ^ n) y) point = y := mle_replicate n y point hp
  rw [hmle] at hv
  exact ⟨{ proof with queries := [] }, ts', rfl, ht, hv⟩

/-- C46 is false: the verifier iterates over the queries in the proof zipped with the sampled positions and never compares their numbers. For
every commitment (any digest at all), every point above the base code's size, every value and every transcript there is a proof without queries that is accepted. -/
theorem C46_no_queries_false (spec : RsSpec) (gen : ℕ → E) (gamma : E) (setupLog maxLog : ℕ)
    (hg : IsPrimitiveRoot (gen (setupLog + spec.rateLog)) (2 ^ (setupLog + spec.rateLog))) (hgamma : gamma ≠ 0) (h2 : (2 : E) ≠ 0)
    (hm : maxLog ≤ setupLog) (hb : spec.basecodeLog ≤ maxLog) (hb0 : 0 < spec.basecodeLog) (env : BfEnv B E D)
    (n : ℕ) (hn : spec.basecodeLog < n) (hmax : n ≤ maxLog) :
    ∃ S, rsScheme spec gen gamma setupLog maxLog = some S ∧
      ∀ (root : D) (point : List E) (y : E) (ts : env.T.State), point.length = n →
        ∃ proof ts', proof.queries = [] ∧ bfVerify S env root (some n) point y proof ts = some ts' := by
  obtain ⟨S, e1, e2, e3, e4, e5, e6, good⟩ := rsScheme_good spec gen gamma setupLog maxLog hg hgamma h2 hm hb
  refine ⟨S, e1, ?_⟩
  intro root point y ts hp
  obtain ⟨proof, ts', h1, _, h3⟩ := forge_without_queries S _ good (by omega) env n (by omega) (by omega) root point hp y ts
  exact ⟨proof, ts', h1, h3⟩

/-- C46 is false for the random foldable code in the same way. -/
theorem C46_no_queries_basecode_false (spec : BasecodeSpec) (flat : ℕ → E) (setupLog maxLog : ℕ) (h2 : (2 : E) ≠ 0)
    (hflat : ∀ i, i < 2 ^ (spec.rateLog + setupLog) → flat i ≠ 0) (hpos : 0 < spec.rateLog + setupLog) (hm : maxLog ≤ setupLog)
    (hb : spec.basecodeLog ≤ maxLog) (hb0 : 0 < spec.basecodeLog) (env : BfEnv B E D) (n : ℕ) (hn : spec.basecodeLog < n) (hmax : n ≤ maxLog) :
    ∃ S, basecodeScheme spec flat setupLog maxLog = some S ∧
      ∀ (root : D) (point : List E) (y : E) (ts : env.T.State), point.length = n →
        ∃ proof ts', proof.queries = [] ∧ bfVerify S env root (some n) point y proof ts = some ts' := by
  obtain ⟨S, e1, e2, e3, e4, e5, e6, good⟩ := basecodeScheme_good spec flat setupLog maxLog h2 hflat hpos hm hb
  refine ⟨S, e1, ?_⟩
  intro root point y ts hp
  obtain ⟨proof, ts', h1, _, h3⟩ := forge_without_queries S _ good (by omega) env n (by omega) (by omega) root point hp y ts
  exact ⟨proof, ts', h1, h3⟩

example : (do
    let S ← rsScheme ⟨2, 1, 1⟩ (fun k => (3 : ZMod 17) ^ 2 ^ (4 - k)) 3 3 3
    let f : List (ZMod 17) := [7, 7, 7, 7, 7, 7, 7, 7]
    let comm ← bfCommit S toyEnv.hasher 3 f
    let proof ← bfOpen S toyEnv f 3 comm [2, 4, 11] [3, 8, 15, 9, 1, 2]
    let _ ← bfVerify S toyEnv 0 (some 3) [2, 4, 11] 7 { proof.1 with queries := [] } [3, 8, 15, 9, 1, 2]
    some ()) = some () := by decide +kernel

/-- C46 is false in a second way, even with all queries present: a proof that carries evaluations is taken as a "trivial" opening without looking at the size of
the committed polynomial. `hash_or_noop` leaves four elements as they are, so the second layer of hashes of a tree over `2^(n+1)` codeword
values reads as a table of `2^n` values of the extension field with the same root. For a code of rate one half it is accepted as the committed polynomial.
`hnoop`, `hlen`, `hsurj` and `hcomp` are properties of the hash in the code with the quadratic extension. -/
theorem C46_inner_layer_false {B : Type} [DecidableEq B] (S : CodeScheme E) (env : BfEnv B E (List B))
    (hnoop : ∀ l, l.length = 4 → env.hasher.hashBases l = l) (hlen : ∀ e, (env.hasher.asBases e).length = 2)
    (hsurj : ∀ l, l.length = 2 → ∃ e, env.hasher.asBases e = l) (hcomp : ∀ a b, (env.hasher.hashTwoDigests a b).length = 4)
    (n : ℕ) (hn : 0 < n) (codeword : List E) (hl : codeword.length = 2 ^ (n + 1)) (tree : MerkleTree B E (List B)) (root : List B)
    (ht : MerkleTree.fromBatchLeaves env.hasher [.ext codeword] = some tree) (hroot : tree.root = some root) :
    ∃ table : List E, table.length = 2 ^ n ∧
      (∀ j, j < 2 ^ (n - 1) → env.hasher.asBases (table.getD (2 * j) 0) ++ env.hasher.asBases (table.getD (2 * j + 1) 0)
        = env.hasher.hashTwoDigests (env.hasher.asBases (codeword.getD (4 * j) 0) ++ env.hasher.asBases (codeword.getD (4 * j + 1) 0))
          (env.hasher.asBases (codeword.getD (4 * j + 2) 0) ++ env.hasher.asBases (codeword.getD (4 * j + 3) 0))) ∧
      ∀ (point : List E) (ts : env.T.State), point.length = n →
        bfVerify S env root (some n) point (mle table point) ⟨[], [], [], [], [.ext table]⟩ ts = some ts := by
  obtain ⟨k, rfl⟩ : ∃ k, n = k + 1 := ⟨n - 1, by omega⟩
  obtain ⟨H, hH⟩ : ∃ H, H = env.hasher := ⟨_, rfl⟩
  rw [← hH] at hnoop hlen hsurj hcomp ht ⊢
  have hp : 2 ^ (k + 1) = 2 * 2 ^ k := by rw [pow_succ]; ring
  have htl : ∀ a b, H.hashTwoLeaves a b = H.asBases a ++ H.asBases b := by
    intro a b
    unfold MerkleHasher.hashTwoLeaves
    exact hnoop _ (by rw [List.length_append, hlen, hlen])
  have hdig : ∀ (poly : List E) j, leafPairHashBatch H (.ext ([poly].map fun p => p.getD (2 * j) 0)) (.ext ([poly].map fun p => p.getD (2 * j + 1) 0)) =
      some (H.asBases (poly.getD (2 * j) 0) ++ H.asBases (poly.getD (2 * j + 1) 0)) := by
    intro poly j
    simp [leafPairHashBatch, htl]
  obtain ⟨dig, hdigd⟩ : ∃ dig : ℕ → List B, dig = fun j => H.asBases (codeword.getD (2 * j) 0) ++ H.asBases (codeword.getD (2 * j + 1) 0) := ⟨_, rfl⟩
  -- the second layer
  have hsplit : ∀ l : List B, l.length = 4 → ∃ a b, H.asBases a ++ H.asBases b = l := by
    intro l hl
    obtain ⟨a, ha⟩ := hsurj (l.take 2) (by simp [hl])
    obtain ⟨b, hb⟩ := hsurj (l.drop 2) (by simp [hl])
    exact ⟨a, b, by rw [ha, hb, List.take_append_drop]⟩
  have hch : ∀ j, ∃ ab : E × E, H.asBases ab.1 ++ H.asBases ab.2 = H.hashTwoDigests (dig (2 * j)) (dig (2 * j + 1)) := by
    intro j
    obtain ⟨a, b, h⟩ := hsplit _ (hcomp (dig (2 * j)) (dig (2 * j + 1)))
    exact ⟨(a, b), h⟩
  choose ab hab using hch
  obtain ⟨table, htable⟩ : ∃ table : List E, table = (List.range (2 ^ (k + 1))).map fun i => if i % 2 = 0 then (ab (i / 2)).1 else (ab (i / 2)).2 := ⟨_, rfl⟩
  have htlen : table.length = 2 ^ (k + 1) := by rw [htable]; simp
  have heven : ∀ j, j < 2 ^ k → table.getD (2 * j) 0 = (ab j).1 := by
    intro j hj
    rw [htable, getD_map_range' _ _ _ _ (by omega), if_pos (by omega), show 2 * j / 2 = j by omega]
  have hodd : ∀ j, j < 2 ^ k → table.getD (2 * j + 1) 0 = (ab j).2 := by
    intro j hj
    rw [htable, getD_map_range' _ _ _ _ (by omega), if_neg (by omega), show (2 * j + 1) / 2 = j by omega]
  have hleafC : ∀ j < 2 ^ (k + 1 + 1), leafAt [.ext codeword] j = some (.ext ([codeword].map fun p => p.getD j 0)) := fun j hj =>
    leafAt_ext (B := B) [codeword] 0 _ j (by simp) (by simpa using hl) hj
  have hleafT : ∀ j < 2 ^ (k + 1), leafAt [.ext table] j = some (.ext ([table].map fun p => p.getD j 0)) := fun j hj =>
    leafAt_ext (B := B) [table] 0 _ j (by simp) (by simpa using htlen) hj
  have hmC := merkelize_eq H [.ext codeword] (k + 1) (.ext codeword) rfl hl _ dig hleafC (fun j _ => by rw [hdigd]; exact hdig codeword j)
  have hmT := merkelize_eq H [.ext table] k (.ext table) rfl htlen _
    (fun j => H.asBases (table.getD (2 * j) 0) ++ H.asBases (table.getD (2 * j + 1) 0)) hleafT (fun j _ => hdig table j)
  have hlayer : nextLayer H ((List.range (2 ^ (k + 1))).map dig)
      = (List.range (2 ^ k)).map fun j => H.asBases (table.getD (2 * j) 0) ++ H.asBases (table.getD (2 * j + 1) 0) := by
    have hnl := nextLayer_length H (2 ^ k) ((List.range (2 ^ (k + 1))).map dig) (by simp [hp])
    apply List.ext_getElem?
    intro j
    by_cases hj : j < 2 ^ k
    · rw [nextLayer_get H j _ (dig (2 * j)) (dig (2 * j + 1)) (by rw [List.getElem?_map, List.getElem?_range (by omega)]; rfl)
        (by rw [List.getElem?_map, List.getElem?_range (by omega)]; rfl)]
      simp only [List.getElem?_map, List.getElem?_range hj, Option.map_some]
      rw [heven j hj, hodd j hj, hab]
    · rw [List.getElem?_eq_none (by omega), List.getElem?_eq_none (by simp; omega)]
  have hrootT : ∃ tT, MerkleTree.fromBatchLeaves H [.ext table] = some tT ∧ tT.root = some root := by
    refine ⟨⟨_, [.ext table]⟩, by unfold MerkleTree.fromBatchLeaves; rw [hmT]; rfl, ?_⟩
    unfold MerkleTree.fromBatchLeaves at ht
    rw [hmC] at ht
    rw [← Option.some.inj ht] at hroot
    unfold MerkleTree.root at hroot ⊢
    have hlast : (layersAbove H (k + 1) ((List.range (2 ^ (k + 1))).map dig)).getLast? =
        (layersAbove H k (nextLayer H ((List.range (2 ^ (k + 1))).map dig))).getLast? := by
      rw [show ∀ l, layersAbove H (k + 1) l = l :: layersAbove H k (nextLayer H l) from fun _ => rfl, List.getLast?_cons]
      have hl := layersAbove_length H k (nextLayer H ((List.range (2 ^ (k + 1))).map dig))
      rcases hcc : layersAbove H k (nextLayer H ((List.range (2 ^ (k + 1))).map dig)) with _ | ⟨a, l⟩
      · rw [hcc] at hl; simp at hl
      · rw [List.getLast?_cons]; rfl
    simp only at hroot
    rw [hlast, hlayer] at hroot
    exact hroot
  obtain ⟨tT, hT1, hT2⟩ := hrootT
  refine ⟨table, htlen, ?_, ?_⟩
  · intro j hj
    have hj' : j < 2 ^ k := by simpa using hj
    rw [heven j hj', hodd j hj', hab, hdigd]
    simp only
    rw [show 2 * (2 * j) = 4 * j by ring, show 2 * (2 * j + 1) = 4 * j + 2 by ring]
  · intro point ts hpt
    unfold bfVerify
    rw [if_pos (by simp)]
    unfold bfVerifyTrivial
    rw [← hH]
    simp only [hT1, hT2, Option.bind_eq_bind, Option.bind_some, if_true, List.head?_cons]
    rw [htlen, (log2_pow (k + 1)).2, evaluate_eq ⟨k + 1, table⟩ htlen point hpt]
    simp

/-- The hypotheses of `C46_inner_layer_false` on the hash hold for an extension of degree two: the field with nine elements over the one with three. -/
example : ∃ H : MerkleHasher (ZMod 3) (GaloisField 3 2) (List (ZMod 3)), (∀ l, l.length = 4 → H.hashBases l = l) ∧
    (∀ e, (H.asBases e).length = 2) ∧ (∀ l, l.length = 2 → ∃ e, H.asBases e = l) ∧ ∀ a b, (H.hashTwoDigests a b).length = 4 := by
  haveI : Fact (Nat.Prime 3) := ⟨by decide +kernel⟩
  have hcard : Nat.card (GaloisField 3 2) = Nat.card (ZMod 3 × ZMod 3) := by
    rw [GaloisField.card 3 2 (by decide), Nat.card_prod]; simp
  haveI : Finite (GaloisField 3 2) := Nat.finite_of_card_ne_zero (by rw [GaloisField.card 3 2 (by decide)]; decide)
  obtain ⟨eqv⟩ : Nonempty (GaloisField 3 2 ≃ ZMod 3 × ZMod 3) := by
    haveI := Fintype.ofFinite (GaloisField 3 2)
    rw [Nat.card_eq_fintype_card, Nat.card_eq_fintype_card] at hcard
    exact Fintype.card_eq.mp hcard
  refine ⟨⟨fun l => l, fun _ _ => [0, 1, 2, 0], fun e => [(eqv e).1, (eqv e).2]⟩, fun _ _ => rfl, fun _ => rfl, ?_, fun _ _ => rfl⟩
  intro l hl
  obtain ⟨a, b, rfl⟩ := List.length_eq_two.mp hl
  exact ⟨eqv.symm (a, b), by simp⟩

/-! ### C46: what acceptance does imply -/

/-- C46, part: if a full (not trivial) opening is accepted and the final message is the table of a polynomial `f` with its last variables fixed to the
challenges, then the value is that of `f`, or the prover was lucky in some round. Missing: that the final message belongs to the committed
polynomial, which needs the queries, whose number is not checked (`C46_no_queries_false`). -/
theorem C46_sumcheck_partial (S : CodeScheme E) (env : BfEnv B E D) (root : D) (commVars : Option ℕ) (point : List E) (y : E)
    (proof : BfProof B E D) (ht : proof.trivial = []) (ts ts' : env.T.State) (hb : S.basecodeLog < point.length)
    (h : bfVerify S env root commVars point y proof ts = some ts') :
    ∃ cs ts1, bfChallenges env (point.length - S.basecodeLog) proof.messages proof.roots ts = some (cs, ts1) ∧
      cs.length = point.length - S.basecodeLog ∧ proof.finalMessage.length = 2 ^ S.basecodeLog ∧
      ∀ f : List E, (∀ i, i < 2 ^ S.basecodeLog → proof.finalMessage.getD i 0 = mle f (bitsPoint S.basecodeLog i ++ cs.reverse)) →
        y = mle f point ∨ LuckyOpening f point proof.messages cs := by
  unfold bfVerify at h
  simp only [ht, ne_eq, not_true_eq_false, if_false] at h
  unfold bfVerifyFull at h
  by_cases hn : commVars = none ∨ commVars = some point.length
  swap
  · rw [if_neg hn] at h; cases h
  rw [if_pos hn] at h
  simp only [Option.bind_eq_bind, Option.bind_eq_some_iff] at h
  obtain ⟨r, h1, c, h2, cf, h3, u, h4, h5⟩ := h
  unfold checkedSub at h1
  rw [if_pos (by omega)] at h1
  obtain rfl := Option.some.inj h1
  have hcl : ∀ (rounds : ℕ) (ms : List (List E)) (rs : List D) (t : env.T.State) (c : List E × env.T.State),
      bfChallenges env rounds ms rs t = some c → c.1.length = rounds := by
    intro rounds
    induction rounds with
    | zero => intro ms rs t c h; simp [bfChallenges] at h; rw [← h]; rfl
    | succ rounds ih =>
      intro ms rs t c h
      rcases rounds with _ | rounds
      · simp only [bfChallenges, Option.bind_eq_bind, Option.bind_eq_some_iff] at h
        obtain ⟨m, _, h⟩ := h
        rw [← Option.some.inj h]; rfl
      · simp only [bfChallenges, Option.bind_eq_bind, Option.bind_eq_some_iff] at h
        obtain ⟨m, _, rt, _, r, h, h'⟩ := h
        rw [← Option.some.inj h', List.length_cons, ih _ _ _ _ h]
  have hcs := hcl _ _ _ _ _ h2
  unfold bfQueryPhase at h4
  simp only [Option.bind_eq_bind, Option.bind_eq_some_iff] at h4
  obtain ⟨cw, g1, _, _, fin, g3, g4⟩ := h4
  rw [hcs, show point.length - (point.length - S.basecodeLog) = S.basecodeLog by omega] at h3 g3
  have htake : (point.take S.basecodeLog).length = S.basecodeLog := by rw [List.length_take]; omega
  have hdrop : (point.drop S.basecodeLog).length = point.length - S.basecodeLog := by rw [List.length_drop]
  rw [eqXYEval_eq _ _ (by intro h; rw [h] at hdrop; simp at hdrop; omega) (by rw [hdrop, List.length_reverse, hcs])] at h3
  obtain rfl := Option.some.inj h3
  have hbe : buildEq (point.take S.basecodeLog) = (List.range (2 ^ S.basecodeLog)).map (chi (point.take S.basecodeLog)) := by
    unfold buildEq
    rw [buildEqSeq_spec _ _ (by simp), htake]
  rw [hbe] at g3
  unfold innerProduct at g3
  by_cases hfl : proof.finalMessage.length = 2 ^ S.basecodeLog
  swap
  · rw [if_neg (by simpa using hfl)] at g3; cases g3
  rw [if_pos (by simpa using hfl)] at g3
  refine ⟨c.1, c.2, h2, hcs, hfl, ?_⟩
  intro f hf
  have hfin : fin = openSum f point (c.1.reverse ++ []) := by
    rw [← Option.some.inj g3, List.append_nil]
    unfold openSum cubeSum
    rw [List.length_reverse, hcs, show point.length - (point.length - S.basecodeLog) = S.basecodeLog by omega]
    have : List.zipWith (· * ·) proof.finalMessage (((List.range (2 ^ S.basecodeLog)).map (chi (point.take S.basecodeLog))).map
        (· * eqPoly (point.drop S.basecodeLog) c.1.reverse))
        = (List.range (2 ^ S.basecodeLog)).map fun i => proof.finalMessage.getD i 0 *
          (chi (point.take S.basecodeLog) i * eqPoly (point.drop S.basecodeLog) c.1.reverse) := by
      apply list_ext_getD 0
      · simp [hfl]
      · intro i hi
        simp only [List.length_zipWith, hfl, List.length_map, List.length_range, min_self] at hi
        rw [zipWith_getD _ _ _ _ (by omega) (by simp; omega), getD_map_range' _ _ _ _ hi, List.map_map, getD_map_range' _ _ _ _ hi]
        rfl
    rw [this, sum_map_range]
    refine Finset.sum_congr rfl fun i hi => ?_
    have hi' := Finset.mem_range.mp hi
    rw [hf i hi']
    have heq : eqPoly point (bitsPoint S.basecodeLog i ++ c.1.reverse) = chi (point.take S.basecodeLog) i * eqPoly (point.drop S.basecodeLog) c.1.reverse := by
      conv_lhs => rw [← List.take_append_drop S.basecodeLog point]
      rw [eqPoly_append _ _ _ _ (by rw [htake]; simp [bitsPoint])]
      congr 1
      have := eqPoly_at_bits (point.take S.basecodeLog) i (by rw [htake]; exact hi')
      rw [htake] at this
      exact this
    beta_reduce
    rw [heq]
    ring
  rw [hfin] at g4
  rcases sumcheckEquations_sound f point c.1 [] proof.messages y (by simp; omega) g4 with hy | ⟨i, m, l1, l2, l3, l4⟩
  · left; rw [hy, openSum_nil]
  · right
    exact ⟨i, m, l1, l2, by simpa using l3, by simpa using l4⟩

open Classical in
/-- C46, part: whatever the message and the earlier challenges, at most two challenges are lucky. -/
theorem C46_lucky_partial [Fintype E] (f point : List E) (m s : List E) (hs : s.length < point.length)
    (h : ∃ X, quadEval m X ≠ openSum f point (X :: s)) :
    (Finset.univ.filter fun X : E => quadEval m X = openSum f point (X :: s)).card ≤ 2 := by
  obtain ⟨P, p1, p2⟩ := openSum_degree f point s hs
  obtain ⟨Q, hQ⟩ : ∃ Q : Polynomial E, Q = Polynomial.C (m.getD 0 0) + Polynomial.X * Polynomial.C (m.getD 1 0)
      + Polynomial.X * Polynomial.X * Polynomial.C (m.getD 2 0) := ⟨_, rfl⟩
  have hQe : ∀ X, quadEval m X = Q.eval X := by intro X; rw [hQ]; simp [quadEval]; ring
  have hQd : Q.natDegree ≤ 2 := by
    rw [hQ]
    compute_degree
  have hne : Q - P ≠ 0 := by
    obtain ⟨X, hX⟩ := h
    intro h0
    apply hX
    rw [hQe, p2, sub_eq_zero.mp h0]
  calc (Finset.univ.filter fun X : E => quadEval m X = openSum f point (X :: s)).card
      ≤ (Q - P).roots.toFinset.card := by
        apply Finset.card_le_card
        intro X hX
        simp only [Finset.mem_filter, Finset.mem_univ, true_and] at hX
        rw [Multiset.mem_toFinset, Polynomial.mem_roots hne, Polynomial.IsRoot.def, Polynomial.eval_sub, ← hQe, ← p2, hX, sub_self]
    _ ≤ (Q - P).roots.card := Multiset.toFinset_card_le _
    _ ≤ (Q - P).natDegree := Polynomial.card_roots' _
    _ ≤ 2 := (Polynomial.natDegree_sub_le _ _).trans (by omega)

/-- The pair of a query, hashed and carried up along the path of the query from the index of the query, gives the root. -/
def Authentic (H : MerkleHasher B E D) (o : CodeQuery B E D) (root : D) : Prop :=
  match o.points with
  | .ext a b => authenticate H o.path (.ext [a, b]) o.index root = some true
  | .base a b => authenticate H o.path (.base [a, b]) o.index root = some true

theorem authentic_of_check (H : MerkleHasher B E D) (o : CodeQuery B E D) (root : D) (h : o.checkPath H root = some ()) : Authentic H o root := by
  unfold CodeQuery.checkPath at h
  unfold Authentic
  rcases hp : o.points with ⟨a, b⟩ | ⟨a, b⟩ <;> rw [hp] at h <;> simp only [Option.bind_eq_bind, Option.bind_eq_some_iff] at h ⊢ <;>
    obtain ⟨ok, h1, h2⟩ := h <;> cases ok <;> simp_all

/-- C46, part: every query in an accepted proof that has a sampled position is at this position, its pairs are authenticated, and along all rounds the pair folds to the
entry of the next pair picked by the position, in the last round to the entry of the final codeword. Missing: that there are as many
queries as sampled positions, and that the pairs are authenticated at the positions of the query (their own indices are never compared with it). -/
theorem C46_queries_partial (S : CodeScheme E) (env : BfEnv B E D) (root : D) (commVars : Option ℕ) (point : List E) (y : E)
    (proof : BfProof B E D) (ht : proof.trivial = []) (ts ts' : env.T.State)
    (h : bfVerify S env root commVars point y proof ts = some ts') :
    ∃ cs ts1 codeword, bfChallenges env (point.length - S.basecodeLog) proof.messages proof.roots ts = some (cs, ts1) ∧
      bfFinalCodeword S proof.finalMessage = some codeword ∧
      ∀ (j : ℕ) (q : ℕ × SingleQuery B E D) (x : E), proof.queries[j]? = some q →
        (bfSampleQueries env.T S.numQueries (env.T.appendExts ts1 proof.finalMessage)).1[j]? = some x →
        q.1 = env.toUsize x % 2 ^ (point.length + S.rateLog) ∧
        Authentic env.hasher q.2.commitment root ∧
        (∀ (i : ℕ) (o : CodeQuery B E D) (r : D), q.2.oracle[i]? = some o → proof.roots[i]? = some r → Authentic env.hasher o r) ∧
        ∀ (k : ℕ) (c : E), cs[k]? = some c → ∃ p, (((q.2.commitment :: q.2.oracle).map fun o => o.points.toExt env.embed)[k]? = some p) ∧ ∃ v,
          FoldTo S (point.length + S.rateLog - (k + 1)) (q.1 / 2 ^ (k + 1)) c p v ∧
          (k + 1 = cs.length → codeword[q.1 / 2 ^ (k + 1)]? = some v) ∧
          (k + 1 < cs.length → ∃ o, q.2.oracle[k]? = some o ∧
            v = if q.1 / 2 ^ (k + 1) % 2 = 0 then (o.points.toExt env.embed).1 else (o.points.toExt env.embed).2) := by
  unfold bfVerify at h
  simp only [ht, ne_eq, not_true_eq_false, if_false] at h
  unfold bfVerifyFull at h
  by_cases hn : commVars = none ∨ commVars = some point.length
  swap
  · rw [if_neg hn] at h; cases h
  rw [if_pos hn] at h
  simp only [Option.bind_eq_bind, Option.bind_eq_some_iff] at h
  obtain ⟨r, h1, c, h2, cf, h3, u, h4, h5⟩ := h
  unfold checkedSub at h1
  by_cases hb : S.basecodeLog ≤ point.length
  swap
  · rw [if_neg hb] at h1; cases h1
  rw [if_pos hb] at h1
  obtain rfl := Option.some.inj h1
  unfold bfQueryPhase at h4
  simp only [Option.bind_eq_bind, Option.bind_eq_some_iff] at h4
  obtain ⟨cw, g1, _, g2, fin, g3, g4⟩ := h4
  refine ⟨c.1, c.2, cw, h2, g1, ?_⟩
  intro j q x hq hx
  obtain ⟨e1, e2⟩ := checkQueries_sound S env _ _ _ _ _ _ _ g2 j q (env.toUsize x % 2 ^ (point.length + S.rateLog)) hq (by
    rw [List.getElem?_map, hx]; rfl)
  rw [← e1] at e2
  unfold SingleQuery.check at e2
  simp only [Option.bind_eq_bind, Option.bind_eq_some_iff] at e2
  obtain ⟨_, p1, _, p2, p3⟩ := e2
  refine ⟨e1, authentic_of_check _ _ _ p2, fun i o r ho hr => authentic_of_check _ _ _ (checkPaths_sound env.hasher _ _ p1 i o r ho hr), ?_⟩
  intro k c0 hk
  obtain ⟨p, s1, v, s2, s3, s4⟩ := queryFold_sound S env.embed _ _ _ _ _ _ _ p3 k c0 hk
  exact ⟨p, by simpa using s1, v, by simpa using s2, s3, s4⟩

/-- C46, part: an opening that carries a table of the committed size. If it is accepted against the root of the tree over `f`, the claimed value is
the value of `f` at the point, or the hash calls made for one pair of values of the two tables, along their paths in the two trees, collide. Missing: a table of
another size, since the size is not checked (`C46_inner_layer_false`). -/
theorem C46_trivial_partial (S : CodeScheme E) (env : BfEnv B E D) (d : ℕ) (hd : ∀ e, (env.hasher.asBases e).length = d)
    (hinj : Function.Injective env.hasher.asBases) (k : ℕ) (f table : List E) (hf : f.length = 2 ^ (k + 1)) (hg : table.length = 2 ^ (k + 1))
    (t : MerkleTree B E D) (root : D) (ht : MerkleTree.fromBatchLeaves env.hasher [.ext f] = some t) (hroot : t.root = some root)
    (commVars : Option ℕ) (point : List E) (y : E) (proof : BfProof B E D) (hp : proof.trivial = [.ext table]) (ts ts' : env.T.State)
    (h : bfVerify S env root commVars point y proof ts = some ts') :
    (point.length = k + 1 ∧ y = mle f point) ∨
      ∃ t', MerkleTree.fromBatchLeaves env.hasher [.ext table] = some t' ∧ ∃ i < 2 ^ (k + 1), ∃ path honest,
        t'.path i = some path ∧ t.path i = some honest ∧
        let pair := fun l : List E => env.hasher.asBases (l.getD (2 * (i / 2)) 0) ++ env.hasher.asBases (l.getD (2 * (i / 2) + 1) 0)
        (Collision env.hasher.hashBases [pair table] [pair f] ∨
          Collision (fun c : D × D => env.hasher.hashTwoDigests c.1 c.2) (hashUpCalls env.hasher path (i / 2) (env.hasher.hashBases (pair table)))
            (hashUpCalls env.hasher honest (i / 2) (env.hasher.hashBases (pair f)))) := by
  unfold bfVerify at h
  rw [hp, if_pos (by simp)] at h
  simp only [Option.bind_eq_bind, Option.bind_eq_some_iff] at h
  obtain ⟨_, h, -⟩ := h
  unfold bfVerifyTrivial at h
  simp only [Option.bind_eq_bind, Option.bind_eq_some_iff] at h
  obtain ⟨t', ht', r, hr, h⟩ := h
  by_cases hrr : root = r
  swap
  · rw [if_neg hrr] at h; cases h
  subst hrr
  rw [if_pos rfl] at h
  simp only [List.head?_cons, Option.bind_some, Option.bind_eq_some_iff] at h
  obtain ⟨v, hv, h⟩ := h
  by_cases hyv : y = v
  swap
  · rw [if_neg hyv] at h; cases h
  subst hyv
  rw [hg, (log2_pow (k + 1)).2] at hv
  have hpl : point.length = k + 1 := by
    by_contra hne
    unfold Mle.evaluate at hv
    rw [if_neg (fun e => hne e.symm)] at hv
    cases hv
  rw [evaluate_eq ⟨k + 1, table⟩ hg point hpl, Option.some.injEq] at hv
  by_cases hall : ∀ i < 2 ^ (k + 1), table.getD (2 * (i / 2)) 0 = f.getD (2 * (i / 2)) 0 ∧ table.getD (2 * (i / 2) + 1) 0 = f.getD (2 * (i / 2) + 1) 0
  · left
    refine ⟨hpl, ?_⟩
    rw [← hv]
    congr 1
    refine list_ext_getD 0 table f (hg.trans hf.symm) fun i hi => ?_
    obtain ⟨h1, h2⟩ := hall i (hg ▸ hi)
    rcases Nat.mod_two_eq_zero_or_one i with hm | hm
    · rwa [show 2 * (i / 2) = i by omega] at h1
    · rwa [show 2 * (i / 2) + 1 = i by omega] at h2
  · right
    push Not at hall
    obtain ⟨i, hi, hne⟩ := hall
    obtain ⟨t1, r1, path, e1, e2, e3, e4, e5⟩ := C42_single_ext env.hasher table 0 k i hg hi
    rw [ht', Option.some.injEq] at e1
    subst e1
    rw [hr, Option.some.injEq] at e2
    subst e2
    rcases C43_committed_ext_partial env.hasher d hd hinj f 0 k i hf hi t root ht hroot path e4 _ _ e5 with ⟨a1, a2⟩ | ⟨honest, a1, a2⟩
    · exact absurd a2 (hne a1)
    · exact ⟨t', ht', i, hi, path, honest, e3, a1, a2⟩

/-- The hypotheses are met: a table of four values is committed and opened as it is, and another value is refused. -/
example : (do
    let S ← rsScheme ⟨2, 1, 2⟩ (fun k => (3 : ZMod 17) ^ 2 ^ (4 - k)) 3 3 3
    let f : List (ZMod 17) := [3, 1, 4, 1]
    let t ← MerkleTree.fromBatchLeaves toyEnv.hasher [.ext f]
    let root ← t.root
    let good ← bfVerify S toyEnv root (some 2) [2, 4] (mle f [2, 4]) ⟨[], [], [], [], [.ext f]⟩ [3]
    some (f.length, good, (bfVerify S toyEnv root (some 2) [2, 4] (mle f [2, 4] + 1) ⟨[], [], [], [], [.ext f]⟩ [3]).isNone,
      (bfVerify S toyEnv (root + 1) (some 2) [2, 4] (mle f [2, 4]) ⟨[], [], [], [], [.ext f]⟩ [3]).isNone)) = some (2 ^ (1 + 1), [3], true, true) ∧
    (∀ e, (toyEnv.hasher.asBases e).length = 1) ∧ Function.Injective toyEnv.hasher.asBases :=
  ⟨by decide +kernel, fun _ => rfl, fun a b h => by simpa [toyEnv] using h⟩

end Props
