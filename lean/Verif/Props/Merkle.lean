import Verif.Lemmas.Merkle

/-!
Properties C42 and C43: openings of Merkle trees.
-/

namespace Lemmas

open Model Spec

variable {B E D : Type}

theorem leafAt_base (polys : List (List B)) (z : B) (n j : ℕ) (hne : polys ≠ []) (hlen : ∀ p ∈ polys, p.length = n) (hj : j < n) :
    leafAt (polys.map fun p => (FieldType.base p : FieldType B E)) j = some (.base (polys.map fun p => p.getD j z)) := by
  have hm : (polys.map fun p => (FieldType.base p : FieldType B E)).mapM (fun x => x.indexBase j) = some (polys.map fun p => p.getD j z) := by
    rw [List.mapM_map]
    refine mapM_some' _ _ _ ?_
    intro p hp
    have hl := hlen p hp
    simp only [FieldType.indexBase, Function.comp]
    rw [List.getElem?_eq_getElem (by omega), List.getD_eq_getElem _ _ (by omega)]
  rcases polys with _ | ⟨p, ps⟩
  · exact absurd rfl hne
  · show ((((p :: ps).map fun p => (FieldType.base p : FieldType B E)).mapM (fun x : FieldType B E => x.indexBase j)).bind fun l => some (FieldType.base l)) = _
    rw [hm]; rfl

theorem leafAt_ext (polys : List (List E)) (z : E) (n j : ℕ) (hne : polys ≠ []) (hlen : ∀ p ∈ polys, p.length = n) (hj : j < n) :
    leafAt (polys.map fun p => (FieldType.ext p : FieldType B E)) j = some (.ext (polys.map fun p => p.getD j z)) := by
  have hm : (polys.map fun p => (FieldType.ext p : FieldType B E)).mapM (fun x => x.indexExt j) = some (polys.map fun p => p.getD j z) := by
    rw [List.mapM_map]
    refine mapM_some' _ _ _ ?_
    intro p hp
    have hl := hlen p hp
    simp only [FieldType.indexExt, Function.comp]
    rw [List.getElem?_eq_getElem (by omega), List.getD_eq_getElem _ _ (by omega)]
  rcases polys with _ | ⟨p, ps⟩
  · exact absurd rfl hne
  · show ((((p :: ps).map fun p => (FieldType.ext p : FieldType B E)).mapM (fun x : FieldType B E => x.indexExt j)).bind fun l => some (FieldType.ext l)) = _
    rw [hm]; rfl

theorem leafPairHashBatch_isSome (H : MerkleHasher B E D) (n : ℕ) (hn : 0 < n) (left right : FieldType B E)
    (h : (∃ l r, left = .base l ∧ right = .base r ∧ l.length = n ∧ r.length = n) ∨
      ∃ l r, left = .ext l ∧ right = .ext r ∧ l.length = n ∧ r.length = n) : ∃ d, leafPairHashBatch H left right = some d := by
  rcases h with ⟨l, r, rfl, rfl, hl, hr⟩ | ⟨l, r, rfl, rfl, hl, hr⟩
  all_goals
    unfold leafPairHashBatch
    by_cases h1 : 1 < l.length
    · simp [h1]
    · simp only [h1, if_false]
      rw [List.getElem?_eq_getElem (by omega), List.getElem?_eq_getElem (by omega)]
      simp

theorem authenticate_single_base [DecidableEq D] (H : MerkleHasher B E D) (path : List D) (a b : B) (i : ℕ) (root : D) :
    authenticate H path (.base [a, b]) i root = authenticateBatch H path (.base [a]) (.base [b]) i root := by
  simp [authenticate, authenticateBatch, leafPairHash, leafPairHashBatch]

theorem authenticate_single_ext [DecidableEq D] (H : MerkleHasher B E D) (path : List D) (a b : E) (i : ℕ) (root : D) :
    authenticate H path (.ext [a, b]) i root = authenticateBatch H path (.ext [a]) (.ext [b]) i root := by
  simp [authenticate, authenticateBatch, leafPairHash, leafPairHashBatch]

theorem flatMap_inj_of_length (f : E → List B) (d : ℕ) (hd : ∀ e, (f e).length = d) (hinj : Function.Injective f) :
    ∀ l l' : List E, l.length = l'.length → l.flatMap f = l'.flatMap f → l = l'
  | [], [], _, _ => rfl
  | a :: l, a' :: l', hl, h => by
    simp only [List.flatMap_cons] at h
    obtain ⟨h1, h2⟩ := List.append_inj h (by rw [hd, hd])
    rw [hinj h1, flatMap_inj_of_length f d hd hinj l l' (by simpa using hl) h2]

/-- Equal digests of pairs of the same kind and lengths: equal pairs or a collision. -/
theorem leafPair_bind (H : MerkleHasher B E D) (d : ℕ) (hd : ∀ e, (H.asBases e).length = d) (hinj : Function.Injective H.asBases)
    (left right left' right' : FieldType B E) (h : D) (h1 : leafPairHashBatch H left right = some h)
    (h2 : leafPairHashBatch H left' right' = some h) (n : ℕ)
    (hk : (∃ l r l' r', left = .base l ∧ right = .base r ∧ left' = .base l' ∧ right' = .base r' ∧ l.length = n ∧ r.length = n ∧
        l'.length = n ∧ r'.length = n) ∨
      ∃ l r l' r', left = .ext l ∧ right = .ext r ∧ left' = .ext l' ∧ right' = .ext r' ∧ l.length = n ∧ r.length = n ∧
        l'.length = n ∧ r'.length = n) :
    (left = left' ∧ right = right') ∨ Collision H.hashBases (leafBaseCalls H left right) (leafBaseCalls H left' right') ∨
      Collision (fun c : D × D => H.hashTwoDigests c.1 c.2) (leafDigestCalls H left right) (leafDigestCalls H left' right') := by
  rcases hk with ⟨l, r, l', r', rfl, rfl, rfl, rfl, hl, hr, hl', hr'⟩ | ⟨l, r, l', r', rfl, rfl, rfl, rfl, hl, hr, hl', hr'⟩
  · unfold leafPairHashBatch at h1 h2
    unfold leafBaseCalls leafDigestCalls
    by_cases hn : 1 < n
    · have a1 : 1 < l.length := by omega
      have a2 : 1 < l'.length := by omega
      simp only [a1, a2, if_true, Option.some.injEq] at h1 h2 ⊢
      rw [← h2] at h1
      by_cases e : (H.hashBases l, H.hashBases r) = (H.hashBases l', H.hashBases r')
      · rw [Prod.mk.injEq] at e
        by_cases e1 : l = l'
        · by_cases e2 : r = r'
          · left; rw [e1, e2]; exact ⟨rfl, rfl⟩
          · right; left
            exact ⟨r, by simp, r', by simp, e2, e.2⟩
        · right; left
          exact ⟨l, by simp, l', by simp, e1, e.1⟩
      · right; right
        exact ⟨_, List.mem_singleton.mpr rfl, _, List.mem_singleton.mpr rfl, e, h1⟩
    · have a1 : ¬ 1 < l.length := by omega
      have a2 : ¬ 1 < l'.length := by omega
      simp only [a1, a2, if_false] at h1 h2 ⊢
      simp only [Option.bind_eq_bind, Option.bind_eq_some_iff, Option.some.injEq] at h1 h2
      obtain ⟨a, ha, b, hb, h1⟩ := h1
      obtain ⟨a', ha', b', hb', h2⟩ := h2
      have single : ∀ (x : List B) (y : B), x.length = n → x[0]? = some y → x = [y] := by
        intro x y hx hy
        match x, hx, hy with
        | [z], _, hy => simp at hy; rw [hy]
        | z :: z' :: x, hx, hy => simp at hx; omega
        | [], hx, hy => simp at hy
      rw [single l a hl ha, single r b hr hb, single l' a' hl' ha', single r' b' hr' hb']
      by_cases e : [a] ++ [b] = [a'] ++ [b']
      · left
        simp only [List.cons_append, List.nil_append, List.cons.injEq, and_true] at e
        rw [e.1, e.2]; exact ⟨rfl, rfl⟩
      · right; left
        refine ⟨_, List.mem_singleton.mpr rfl, _, List.mem_singleton.mpr rfl, e, ?_⟩
        exact h1.trans h2.symm
  · unfold leafPairHashBatch at h1 h2
    unfold leafBaseCalls leafDigestCalls
    by_cases hn : 1 < n
    · have a1 : 1 < l.length := by omega
      have a2 : 1 < l'.length := by omega
      simp only [a1, a2, if_true, Option.some.injEq] at h1 h2 ⊢
      rw [← h2] at h1
      by_cases e : (H.hashElems l, H.hashElems r) = (H.hashElems l', H.hashElems r')
      · rw [Prod.mk.injEq] at e
        by_cases e1 : l = l'
        · by_cases e2 : r = r'
          · left; rw [e1, e2]; exact ⟨rfl, rfl⟩
          · right; left
            exact ⟨r.flatMap H.asBases, by simp, r'.flatMap H.asBases, by simp,
              fun e' => e2 (flatMap_inj_of_length _ d hd hinj _ _ (by omega) e'), e.2⟩
        · right; left
          exact ⟨l.flatMap H.asBases, by simp, l'.flatMap H.asBases, by simp,
            fun e' => e1 (flatMap_inj_of_length _ d hd hinj _ _ (by omega) e'), e.1⟩
      · right; right
        exact ⟨_, List.mem_singleton.mpr rfl, _, List.mem_singleton.mpr rfl, e, h1⟩
    · have a1 : ¬ 1 < l.length := by omega
      have a2 : ¬ 1 < l'.length := by omega
      simp only [a1, a2, if_false] at h1 h2 ⊢
      simp only [Option.bind_eq_bind, Option.bind_eq_some_iff, Option.some.injEq] at h1 h2
      obtain ⟨a, ha, b, hb, h1⟩ := h1
      obtain ⟨a', ha', b', hb', h2⟩ := h2
      have single : ∀ (x : List E) (y : E), x.length = n → x[0]? = some y → x = [y] := by
        intro x y hx hy
        match x, hx, hy with
        | [z], _, hy => simp at hy; rw [hy]
        | z :: z' :: x, hx, hy => simp at hx; omega
        | [], hx, hy => simp at hy
      rw [single l a hl ha, single r b hr hb, single l' a' hl' ha', single r' b' hr' hb']
      by_cases e : H.asBases a ++ H.asBases b = H.asBases a' ++ H.asBases b'
      · left
        obtain ⟨e1, e2⟩ := List.append_inj e (by rw [hd, hd])
        rw [hinj e1, hinj e2]; exact ⟨rfl, rfl⟩
      · right; left
        refine ⟨_, List.mem_singleton.mpr rfl, _, List.mem_singleton.mpr rfl, ?_, ?_⟩
        · simpa using e
        · have := h1.trans h2.symm
          simpa [MerkleHasher.hashTwoLeaves] using this

theorem hashUp_mod (H : MerkleHasher B E D) : ∀ (path : List D) (x : ℕ) (h : D), hashUp H path (x % 2 ^ path.length) h = hashUp H path x h
  | [], _, _ => rfl
  | p :: ps, x, h => by
    show hashUp H ps ((x % 2 ^ (ps.length + 1)) >>> 1) (if x % 2 ^ (ps.length + 1) &&& 1 = 0 then H.hashTwoDigests h p else H.hashTwoDigests p h) =
      hashUp H ps (x >>> 1) (if x &&& 1 = 0 then H.hashTwoDigests h p else H.hashTwoDigests p h)
    have h1 : x % 2 ^ (ps.length + 1) &&& 1 = x &&& 1 := by
      rw [Nat.and_one_is_mod, Nat.and_one_is_mod, pow_succ, Nat.mul_comm]
      exact Nat.mod_mul_right_mod _ _ _
    have h2 : (x % 2 ^ (ps.length + 1)) >>> 1 = (x >>> 1) % 2 ^ ps.length := by
      rw [Nat.shiftRight_one, Nat.shiftRight_one, pow_succ, Nat.mul_comm, Nat.mod_mul_right_div_self]
    rw [h1, h2, hashUp_mod H ps]

end Lemmas

namespace Props

open Model Spec Lemmas

variable {B E D : Type} [DecidableEq D]

/-- C42, for a batch of polynomials over the base field: for every list of polynomials of length `2 ^ (k + 1)` and every position, the tree and the path exist and
the path authenticates the two leaves of the pair that contains the position. -/
theorem C42_batch_base (H : MerkleHasher B E D) (polys : List (List B)) (z : B) (k i : ℕ) (hne : polys ≠ [])
    (hlen : ∀ p ∈ polys, p.length = 2 ^ (k + 1)) (hi : i < 2 ^ (k + 1)) :
    ∃ t root path, MerkleTree.fromBatchLeaves H (polys.map fun p => FieldType.base p) = some t ∧ t.root = some root ∧
      t.path i = some path ∧ path.length = k ∧
      authenticateBatch H path (.base (polys.map fun p => p.getD (2 * (i / 2)) z)) (.base (polys.map fun p => p.getD (2 * (i / 2) + 1) z))
        i root = some true := by
  have hp : 2 ^ (k + 1) = 2 * 2 ^ k := by rw [pow_succ]; ring
  have hex : ∀ j, ∃ d, leafPairHashBatch H (.base (polys.map fun p => p.getD (2 * j) z)) (.base (polys.map fun p => p.getD (2 * j + 1) z)) = some d :=
    fun j => leafPairHashBatch_isSome H polys.length (List.length_pos_iff.mpr hne) _ _ (Or.inl ⟨_, _, rfl, rfl, by simp, by simp⟩)
  choose digest hdig using hex
  rcases polys with _ | ⟨p, ps⟩
  · exact absurd rfl hne
  · obtain ⟨t, root, path, ht, hroot, hpath, hpl, hup, -⟩ := tree_open H ((p :: ps).map fun p => FieldType.base p) k i (.base p) rfl
      (hlen p (by simp)) hi (fun j => .base ((p :: ps).map fun p => p.getD j z)) digest
      (fun j hj => leafAt_base (p :: ps) z _ j hne hlen hj) (fun j _ => hdig j)
    refine ⟨t, root, path, ht, hroot, hpath, hpl, ?_⟩
    unfold authenticateBatch
    simp only [hdig, Option.bind_eq_bind, Option.bind_some]
    simp [hup]

/-- C42, for a batch of polynomials over the extension field. -/
theorem C42_batch_ext (H : MerkleHasher B E D) (polys : List (List E)) (z : E) (k i : ℕ) (hne : polys ≠ [])
    (hlen : ∀ p ∈ polys, p.length = 2 ^ (k + 1)) (hi : i < 2 ^ (k + 1)) :
    ∃ t root path, MerkleTree.fromBatchLeaves H (polys.map fun p => FieldType.ext p) = some t ∧ t.root = some root ∧
      t.path i = some path ∧ path.length = k ∧
      authenticateBatch H path (.ext (polys.map fun p => p.getD (2 * (i / 2)) z)) (.ext (polys.map fun p => p.getD (2 * (i / 2) + 1) z))
        i root = some true := by
  have hp : 2 ^ (k + 1) = 2 * 2 ^ k := by rw [pow_succ]; ring
  have hex : ∀ j, ∃ d, leafPairHashBatch H (.ext (polys.map fun p => p.getD (2 * j) z)) (.ext (polys.map fun p => p.getD (2 * j + 1) z)) = some d :=
    fun j => leafPairHashBatch_isSome H polys.length (List.length_pos_iff.mpr hne) _ _ (Or.inr ⟨_, _, rfl, rfl, by simp, by simp⟩)
  choose digest hdig using hex
  rcases polys with _ | ⟨p, ps⟩
  · exact absurd rfl hne
  · obtain ⟨t, root, path, ht, hroot, hpath, hpl, hup, -⟩ := tree_open H ((p :: ps).map fun p => FieldType.ext p) k i (.ext p) rfl
      (hlen p (by simp)) hi (fun j => .ext ((p :: ps).map fun p => p.getD j z)) digest
      (fun j hj => leafAt_ext (p :: ps) z _ j hne hlen hj) (fun j _ => hdig j)
    refine ⟨t, root, path, ht, hroot, hpath, hpl, ?_⟩
    unfold authenticateBatch
    simp only [hdig, Option.bind_eq_bind, Option.bind_some]
    simp [hup]

/-- C42, for one polynomial over the base field. -/
theorem C42_single_base (H : MerkleHasher B E D) (poly : List B) (z : B) (k i : ℕ) (hlen : poly.length = 2 ^ (k + 1))
    (hi : i < 2 ^ (k + 1)) :
    ∃ t root path, MerkleTree.fromBatchLeaves H [.base poly] = some t ∧ t.root = some root ∧ t.path i = some path ∧ path.length = k ∧
      authenticate H path (.base [poly.getD (2 * (i / 2)) z, poly.getD (2 * (i / 2) + 1) z]) i root = some true := by
  simp only [authenticate_single_base]
  exact C42_batch_base H [poly] z k i (by simp) (by simpa using hlen) hi

/-- C42, for one polynomial over the extension field. -/
theorem C42_single_ext (H : MerkleHasher B E D) (poly : List E) (z : E) (k i : ℕ) (hlen : poly.length = 2 ^ (k + 1))
    (hi : i < 2 ^ (k + 1)) :
    ∃ t root path, MerkleTree.fromBatchLeaves H [.ext poly] = some t ∧ t.root = some root ∧ t.path i = some path ∧ path.length = k ∧
      authenticate H path (.ext [poly.getD (2 * (i / 2)) z, poly.getD (2 * (i / 2) + 1) z]) i root = some true := by
  simp only [authenticate_single_ext]
  exact C42_batch_ext H [poly] z k i (by simp) (by simpa using hlen) hi

/-- C42: a tree is not built over a number of leaves that is not a power of two. -/
theorem C42_not_power_of_two (H : MerkleHasher B E D) (v : FieldType B E) (rest : List (FieldType B E)) (h : ∀ k, v.len ≠ 2 ^ k) :
    MerkleTree.fromBatchLeaves H (v :: rest) = none := by
  have : log2Strict v.len = none := by unfold log2Strict; rw [if_neg (h _)]
  simp [MerkleTree.fromBatchLeaves, merkelize, this]

/-- The hypotheses are met: two polynomials of four leaves, opened at position 2. The digests are the terms of the hash calls. -/
example : ∃ t root path, MerkleTree.fromBatchLeaves (⟨fun l => l, fun a b => a ++ [0] ++ b ++ [1], fun e => [e.1, e.2]⟩ :
      MerkleHasher ℕ (ℕ × ℕ) (List ℕ)) ([[7, 8, 9, 10], [4, 3, 2, 5]].map fun p => FieldType.base p) = some t ∧ t.root = some root ∧
      t.path 2 = some path ∧ path.length = 1 ∧
      authenticateBatch (⟨fun l => l, fun a b => a ++ [0] ++ b ++ [1], fun e => [e.1, e.2]⟩ : MerkleHasher ℕ (ℕ × ℕ) (List ℕ)) path
        (.base [9, 2]) (.base [10, 5]) 2 root = some true :=
  C42_batch_base _ [[7, 8, 9, 10], [4, 3, 2, 5]] 0 1 2 (by simp) (by simp) (by decide)

/-- C43, part: two accepted openings of the same root at the same position, by paths of the same length and with pairs of the same
kind and number of polynomials. The pairs are equal, or two of the hash calls made by the two verifications collide. Missing: that only paths of
the tree's depth are accepted, which is false, see `C43_short_path_false`. -/
theorem C43_binding_partial (H : MerkleHasher B E D) (d : ℕ) (hd : ∀ e, (H.asBases e).length = d) (hinj : Function.Injective H.asBases)
    (path path' : List D) (hpl : path.length = path'.length) (left right left' right' : FieldType B E) (n : ℕ)
    (hk : (∃ l r l' r', left = .base l ∧ right = .base r ∧ left' = .base l' ∧ right' = .base r' ∧ l.length = n ∧ r.length = n ∧
        l'.length = n ∧ r'.length = n) ∨
      ∃ l r l' r', left = .ext l ∧ right = .ext r ∧ left' = .ext l' ∧ right' = .ext r' ∧ l.length = n ∧ r.length = n ∧
        l'.length = n ∧ r'.length = n)
    (index index' : ℕ) (hidx : index / 2 = index' / 2) (root : D)
    (h : authenticateBatch H path left right index root = some true)
    (h' : authenticateBatch H path' left' right' index' root = some true) :
    (left = left' ∧ right = right' ∧ path = path') ∨
      Collision H.hashBases (leafBaseCalls H left right) (leafBaseCalls H left' right') ∨
      ∃ digest digest', leafPairHashBatch H left right = some digest ∧ leafPairHashBatch H left' right' = some digest' ∧
        Collision (fun c : D × D => H.hashTwoDigests c.1 c.2)
          (leafDigestCalls H left right ++ hashUpCalls H path (index / 2) digest)
          (leafDigestCalls H left' right' ++ hashUpCalls H path' (index' / 2) digest') := by
  unfold authenticateBatch at h h'
  simp only [Option.bind_eq_bind, Option.bind_eq_some_iff, Option.some.injEq, decide_eq_true_eq, Nat.shiftRight_one] at h h'
  obtain ⟨a, ha, h⟩ := h
  obtain ⟨a', ha', h'⟩ := h'
  rw [← hidx] at h' ⊢
  rcases hashUp_bind H path path' (index / 2) a a' hpl (h.trans h'.symm) with ⟨e1, e2⟩ | ⟨x, hx, y, hy, hne, hxy⟩
  · rw [← e1] at ha'
    rcases leafPair_bind H d hd hinj left right left' right' a ha ha' n hk with ⟨h1, h2⟩ | hc | ⟨x, hx, y, hy, hne, hxy⟩
    · exact Or.inl ⟨h1, h2, e2⟩
    · exact Or.inr (Or.inl hc)
    · exact Or.inr (Or.inr ⟨a, a, ha, ha', x, List.mem_append_left _ hx, y, List.mem_append_left _ hy, hne, hxy⟩)
  · exact Or.inr (Or.inr ⟨a, a', ha, ha', x, List.mem_append_right _ hx, y, List.mem_append_right _ hy, hne, hxy⟩)

/-- C43, part: an accepted opening of a committed tree by a path of its depth is the pair of committed leaves, or its hash calls collide
with those of the honest opening. Stated for a batch over the base field. -/
theorem C43_committed_base_partial (H : MerkleHasher B E D) (d : ℕ) (hd : ∀ e, (H.asBases e).length = d)
    (hinj : Function.Injective H.asBases) (polys : List (List B)) (z : B) (k i : ℕ) (hne : polys ≠ [])
    (hlen : ∀ p ∈ polys, p.length = 2 ^ (k + 1)) (hi : i < 2 ^ (k + 1)) (t : MerkleTree B E D) (root : D)
    (ht : MerkleTree.fromBatchLeaves H (polys.map fun p => FieldType.base p) = some t) (hroot : t.root = some root)
    (path : List D) (hpl : path.length = k) (left right : List B) (hl : left.length = polys.length) (hr : right.length = polys.length)
    (h : authenticateBatch H path (.base left) (.base right) i root = some true) :
    (left = polys.map (fun p => p.getD (2 * (i / 2)) z) ∧ right = polys.map fun p => p.getD (2 * (i / 2) + 1) z) ∨
      ∃ honest digest digest', t.path i = some honest ∧ leafPairHashBatch H (.base left) (.base right) = some digest ∧
        leafPairHashBatch H (.base (polys.map fun p => p.getD (2 * (i / 2)) z)) (.base (polys.map fun p => p.getD (2 * (i / 2) + 1) z)) =
          some digest' ∧
        (Collision H.hashBases (leafBaseCalls H (.base left) (.base right))
            (leafBaseCalls H (.base (polys.map fun p => p.getD (2 * (i / 2)) z)) (.base (polys.map fun p => p.getD (2 * (i / 2) + 1) z))) ∨
          Collision (fun c : D × D => H.hashTwoDigests c.1 c.2)
            (leafDigestCalls H (.base left) (.base right) ++ hashUpCalls H path (i / 2) digest)
            (leafDigestCalls H (.base (polys.map fun p => p.getD (2 * (i / 2)) z)) (.base (polys.map fun p => p.getD (2 * (i / 2) + 1) z)) ++
              hashUpCalls H honest (i / 2) digest')) := by
  obtain ⟨t', root', honest, ht', hroot', hpath, hhl, hauth⟩ := C42_batch_base H polys z k i hne hlen hi
  rw [ht, Option.some.injEq] at ht'
  subst ht'
  rw [hroot, Option.some.injEq] at hroot'
  subst hroot'
  rcases C43_binding_partial H d hd hinj path honest (by rw [hpl, hhl]) _ _ _ _ polys.length
    (Or.inl ⟨_, _, _, _, rfl, rfl, rfl, rfl, hl, hr, by simp, by simp⟩) i i rfl root h hauth with ⟨h1, h2, -⟩ | hc | ⟨a, a', h1, h2, hc⟩
  · left; exact ⟨by simpa using h1, by simpa using h2⟩
  · right
    unfold authenticateBatch at h hauth
    simp only [Option.bind_eq_bind, Option.bind_eq_some_iff] at h hauth
    obtain ⟨a, ha, -⟩ := h
    obtain ⟨a', ha', -⟩ := hauth
    exact ⟨honest, a, a', hpath, ha, ha', Or.inl hc⟩
  · right; exact ⟨honest, a, a', hpath, h1, h2, Or.inr hc⟩

/-- C43, part: the same for one polynomial over the extension field. -/
theorem C43_committed_ext_partial (H : MerkleHasher B E D) (d : ℕ) (hd : ∀ e, (H.asBases e).length = d)
    (hinj : Function.Injective H.asBases) (poly : List E) (z : E) (k i : ℕ)
    (hlen : poly.length = 2 ^ (k + 1)) (hi : i < 2 ^ (k + 1)) (t : MerkleTree B E D) (root : D)
    (ht : MerkleTree.fromBatchLeaves H [.ext poly] = some t) (hroot : t.root = some root)
    (path : List D) (hpl : path.length = k) (left right : E) (h : authenticate H path (.ext [left, right]) i root = some true) :
    (left = poly.getD (2 * (i / 2)) z ∧ right = poly.getD (2 * (i / 2) + 1) z) ∨
      ∃ honest, t.path i = some honest ∧
        (Collision H.hashBases [H.asBases left ++ H.asBases right]
            [H.asBases (poly.getD (2 * (i / 2)) z) ++ H.asBases (poly.getD (2 * (i / 2) + 1) z)] ∨
          Collision (fun c : D × D => H.hashTwoDigests c.1 c.2) 
            (hashUpCalls H path (i / 2) (H.hashBases (H.asBases left ++ H.asBases right)))
            (hashUpCalls H honest (i / 2)
              (H.hashBases (H.asBases (poly.getD (2 * (i / 2)) z) ++ H.asBases (poly.getD (2 * (i / 2) + 1) z))))) := by
  obtain ⟨t', root', honest, ht', hroot', hpath, hhl, hauth⟩ := C42_single_ext H poly z k i hlen hi
  rw [ht, Option.some.injEq] at ht'
  subst ht'
  rw [hroot, Option.some.injEq] at hroot'
  subst hroot'
  rw [authenticate_single_ext] at h hauth
  rcases C43_binding_partial H d hd hinj path honest (by rw [hpl, hhl]) _ _ _ _ 1
    (Or.inr ⟨_, _, _, _, rfl, rfl, rfl, rfl, rfl, rfl, rfl, rfl⟩) i i rfl root h hauth with ⟨h1, h2, -⟩ | hc | ⟨a, a', h1, h2, hc⟩
  · left; exact ⟨by simpa using h1, by simpa using h2⟩
  · right
    exact ⟨honest, hpath, Or.inl (by simpa [leafBaseCalls] using hc)⟩
  · right
    have h1' : H.hashBases (H.asBases left ++ H.asBases right) = a := Option.some.inj h1
    have h2' : H.hashBases (H.asBases (poly.getD (2 * (i / 2)) z) ++ H.asBases (poly.getD (2 * (i / 2) + 1) z)) = a' := Option.some.inj h2
    subst h1' h2'
    exact ⟨honest, hpath, Or.inr (by simpa [leafDigestCalls] using hc)⟩

/-- C43 is false in its second part: the length of a path is not checked, and four elements are "hashed" to themselves. For every tree over
at least four leaves of one polynomial over the quadratic extension, and for every position, the verifier accepts a path one shorter
than the tree's with a pair that is not a pair of leaves but the digest of an inner node. No collision is involved. -/
theorem C43_short_path_false {B : Type} [DecidableEq B] (zero : B) (sponge : List B → List B) (compress : List B → List B → List B)
    (hc : ∀ a b, (compress a b).length = 4) (poly : List (B × B)) (z : B × B) (k : ℕ) (hlen : poly.length = 2 ^ (k + 2)) :
    ∃ t root, MerkleTree.fromBatchLeaves (poseidonHasher zero sponge compress) [.ext poly] = some t ∧ t.root = some root ∧
      (∀ i < 2 ^ (k + 2), ∃ honest, t.path i = some honest ∧ honest.length = k + 1) ∧
      ∀ index, ∃ path left right, path.length = k ∧
        authenticate (poseidonHasher zero sponge compress) path (.ext [left, right]) index root = some true ∧
        let leafPair := fun j => [(poly.getD (2 * j) z).1, (poly.getD (2 * j) z).2, (poly.getD (2 * j + 1) z).1, (poly.getD (2 * j + 1) z).2]
        [left.1, left.2, right.1, right.2] = compress (leafPair (2 * (index / 2 % 2 ^ k))) (leafPair (2 * (index / 2 % 2 ^ k) + 1)) := by
  obtain ⟨H, hH⟩ : ∃ H, H = poseidonHasher zero sponge compress := ⟨_, rfl⟩
  obtain ⟨leafPair, hleafPair⟩ : ∃ f : ℕ → List B, f = fun j => [(poly.getD (2 * j) z).1, (poly.getD (2 * j) z).2,
    (poly.getD (2 * j + 1) z).1, (poly.getD (2 * j + 1) z).2] := ⟨_, rfl⟩
  have hp : 2 ^ (k + 1) = 2 * 2 ^ k := by rw [pow_succ]; ring
  have hdig : ∀ j, leafPairHashBatch H (.ext ([poly].map fun p => p.getD (2 * j) z)) (.ext ([poly].map fun p => p.getD (2 * j + 1) z)) =
      some (leafPair j) := by
    intro j
    rw [hleafPair, hH]
    simp [leafPairHashBatch, MerkleHasher.hashTwoLeaves, poseidonHasher]
  have hleaf : ∀ j < 2 ^ (k + 1 + 1), leafAt [.ext poly] j = some (.ext ([poly].map fun p => p.getD j z)) := fun j hj =>
    leafAt_ext (B := B) [poly] z _ j (by simp) (by simpa using hlen) hj
  have hm := merkelize_eq H [.ext poly] (k + 1) (.ext poly) rfl hlen _ leafPair hleaf (fun j _ => hdig j)
  have hnl : (nextLayer H ((List.range (2 ^ (k + 1))).map leafPair)).length = 2 ^ k := nextLayer_length H _ _ (by simp [hp])
  have hlast : (layersAbove H (k + 1) ((List.range (2 ^ (k + 1))).map leafPair)).getLast? =
      (layersAbove H k (nextLayer H ((List.range (2 ^ (k + 1))).map leafPair))).getLast? := by
    rw [show ∀ l, layersAbove H (k + 1) l = l :: layersAbove H k (nextLayer H l) from fun _ => rfl, List.getLast?_cons]
    have hl := layersAbove_length H k (nextLayer H ((List.range (2 ^ (k + 1))).map leafPair))
    rcases hcc : layersAbove H k (nextLayer H ((List.range (2 ^ (k + 1))).map leafPair)) with _ | ⟨a, l⟩
    · rw [hcc] at hl; simp at hl
    · rw [List.getLast?_cons]; rfl
  rw [← hH]
  obtain ⟨root, -, -, -, hroot, -⟩ := hashUp_honest H k _ 0 0 0 hnl (Nat.two_pow_pos k) rfl
  refine ⟨⟨_, [.ext poly]⟩, root, by unfold MerkleTree.fromBatchLeaves; rw [hm]; rfl, ?_, ?_, ?_⟩
  · show ((layersAbove H (k + 1) ((List.range (2 ^ (k + 1))).map leafPair)).getLast?.bind fun l => l[0]?) = some root
    rw [hlast]; exact hroot
  · intro i hi
    obtain ⟨t, r, path, ht, -, hpath, hpl, -⟩ := tree_open H [.ext poly] (k + 1) i (.ext poly) rfl hlen hi _ leafPair hleaf (fun j _ => hdig j)
    unfold MerkleTree.fromBatchLeaves at ht
    rw [hm] at ht
    rw [← Option.some.inj ht] at hpath
    exact ⟨path, hpath, hpl⟩
  · intro index
    obtain ⟨q, hq⟩ : ∃ q, q = index / 2 % 2 ^ k := ⟨_, rfl⟩
    have hqlt : q < 2 ^ k := by rw [hq]; exact Nat.mod_lt _ (Nat.two_pow_pos k)
    obtain ⟨root', h, path, hh, hroot', hpath, hpl, hup⟩ := hashUp_honest H k _ q (2 * q) 0 hnl hqlt (by rw [zero_add, Nat.shiftRight_one]; omega)
    rw [hroot, Option.some.injEq] at hroot'
    rw [← hroot'] at hup
    have hg := nextLayer_get H q ((List.range (2 ^ (k + 1))).map leafPair) (leafPair (2 * q)) (leafPair (2 * q + 1))
      (by rw [List.getElem?_map, List.getElem?_range (by omega)]; rfl) (by rw [List.getElem?_map, List.getElem?_range (by omega)]; rfl)
    rw [hh] at hg
    have hh2 : h = compress (leafPair (2 * q)) (leafPair (2 * q + 1)) := by rw [Option.some.inj hg, hH]; rfl
    have hl4 : h.length = 4 := by rw [hh2]; exact hc _ _
    rcases h with _ | ⟨h0, _ | ⟨h1, _ | ⟨h2, _ | ⟨h3, _ | ⟨h4, rest⟩⟩⟩⟩⟩ <;> simp at hl4
    refine ⟨path, (h0, h1), (h2, h3), hpl, ?_, ?_⟩
    · have hlp : leafPairHash H (.ext [(h0, h1), (h2, h3)]) = some [h0, h1, h2, h3] := by
        rw [hH]
        simp [leafPairHash, MerkleHasher.hashTwoLeaves, poseidonHasher]
      have hmod := hashUp_mod H path (index / 2) [h0, h1, h2, h3]
      rw [hpl, ← hq, hup] at hmod
      unfold authenticate
      simp only [hlp, Option.bind_eq_bind, Option.bind_some, Nat.shiftRight_one]
      simp [← hmod]
    · show [h0, h1, h2, h3] = compress ((fun j => [(poly.getD (2 * j) z).1, (poly.getD (2 * j) z).2,
          (poly.getD (2 * j + 1) z).1, (poly.getD (2 * j + 1) z).2]) (2 * (index / 2 % 2 ^ k))) ((fun j => [(poly.getD (2 * j) z).1, (poly.getD (2 * j) z).2,
          (poly.getD (2 * j + 1) z).1, (poly.getD (2 * j + 1) z).2]) (2 * (index / 2 % 2 ^ k) + 1))
      rw [← hleafPair, ← hq]
      exact hh2

/-- A case: four leaves; at position 0 the committed pair is `(1, 2), (3, 4)`, but with an empty path the pair `(6, 8), (10, 12)` is
accepted. -/
example : let H := poseidonHasher (0 : ℕ) (fun l => l) (fun a b => List.zipWith (· + ·) a b)
    (MerkleTree.fromBatchLeaves H [.ext [(1, 2), (3, 4), (5, 6), (7, 8)]]).bind (·.root) = some [6, 8, 10, 12] ∧
    authenticate H [[5, 6, 7, 8]] (.ext [(1, 2), (3, 4)]) 0 [6, 8, 10, 12] = some true ∧
    authenticate H [] (.ext [(6, 8), (10, 12)]) 0 [6, 8, 10, 12] = some true := by
  decide +kernel

/-- The hypotheses of the binding theorems are met, with different pairs: for a compression that is a sum two openings of the same root are
accepted, and the calls `(1234, 5678)` and `(2234, 4678)` collide. -/
example : let H := poseidonHasher (0 : ℕ) (fun l => l) (fun a b => List.zipWith (· + ·) a b)
    authenticate H [[5, 6, 7, 8]] (.ext [(1, 2), (3, 4)]) 1 [6, 8, 10, 12] = some true ∧
    authenticate H [[4, 6, 7, 8]] (.ext [(2, 2), (3, 4)]) 0 [6, 8, 10, 12] = some true ∧
    hashUpCalls H [[5, 6, 7, 8]] 0 [1, 2, 3, 4] = [([1, 2, 3, 4], [5, 6, 7, 8])] ∧
    hashUpCalls H [[4, 6, 7, 8]] 0 [2, 2, 3, 4] = [([2, 2, 3, 4], [4, 6, 7, 8])] := by
  decide +kernel

end Props
