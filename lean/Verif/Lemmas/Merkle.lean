import Verif.Model.Merkle
import Verif.Spec.Merkle
import Verif.Lemmas.TensorIndex
import Mathlib.Data.List.GetD
import Mathlib.Tactic.Ring

/-!
Lemmas about Merkle trees.
-/

namespace Lemmas

open Model Spec

variable {B E D : Type}

theorem xor_one_even (q : ℕ) : (2 * q) ^^^ 1 = 2 * q + 1 := by
  have := Nat.xor_mod_two_eq (m := 2 * q) (n := 1)
  have h2 : ((2 * q) ^^^ 1) / 2 = q := by rw [Nat.xor_div_two]; simp
  omega

theorem xor_one_odd (q : ℕ) : (2 * q + 1) ^^^ 1 = 2 * q := by
  have := Nat.xor_mod_two_eq (m := 2 * q + 1) (n := 1)
  have h2 : ((2 * q + 1) ^^^ 1) / 2 = q := by rw [Nat.xor_div_two]; simp; omega
  omega

theorem nextLayer_length (H : MerkleHasher B E D) : ∀ (n : ℕ) (l : List D), l.length = 2 * n → (nextLayer H l).length = n
  | 0, l, h => by
    have : l = [] := List.length_eq_zero_iff.mp (by omega)
    subst this; rfl
  | n + 1, l, h => by
    match l, h with
    | a :: b :: rest, h =>
      simp only [nextLayer, List.length_cons]
      rw [nextLayer_length H n rest (by simpa using by simp at h; omega)]
    | [a], h => simp at h; omega
    | [], h => simp at h

theorem nextLayer_get (H : MerkleHasher B E D) : ∀ (i : ℕ) (l : List D) (a b : D), l[2 * i]? = some a → l[2 * i + 1]? = some b →
    (nextLayer H l)[i]? = some (H.hashTwoDigests a b)
  | i, [], a, b, ha, _ => by simp at ha
  | i, [x], a, b, _, hb => by simp at hb
  | 0, x :: y :: rest, a, b, ha, hb => by
    simp at ha hb
    simp [nextLayer, ha, hb]
  | i + 1, x :: y :: rest, a, b, ha, hb => by
    have e1 : 2 * (i + 1) = 2 * i + 1 + 1 := by ring
    rw [e1] at ha hb
    simp only [List.getElem?_cons_succ] at ha hb
    simp only [nextLayer, List.getElem?_cons_succ]
    exact nextLayer_get H i rest a b ha hb

theorem layersAbove_length (H : MerkleHasher B E D) : ∀ (k : ℕ) (l : List D), (layersAbove H k l).length = k + 1
  | 0, _ => rfl
  | k + 1, l => by simp [layersAbove, layersAbove_length H k]

/-- The part of a path above a layer, hashed with the entry at `pos`, gives the last layer's entry. -/
theorem hashUp_honest (H : MerkleHasher B E D) : ∀ (k : ℕ) (layer : List D) (pos index j : ℕ), layer.length = 2 ^ k → pos < 2 ^ k →
    index >>> (j + 1) = pos → ∃ root h path, layer[pos]? = some h ∧
      ((layersAbove H k layer).getLast?.bind fun l => l[0]?) = some root ∧
      ((((layersAbove H k layer).take ((layersAbove H k layer).length - 1)).zipIdx j).mapM fun (x : List D × ℕ) =>
        x.1[(index >>> (x.2 + 1)) ^^^ 1]?) = some path ∧ path.length = k ∧ hashUp H path pos h = root := by
  intro k
  induction k with
  | zero =>
    intro layer pos index j hl hp hi
    match layer, hl with
    | [d], _ =>
      have : pos = 0 := by simpa using hp
      subst this
      exact ⟨d, d, [], by simp, by simp [layersAbove], by simp [layersAbove], rfl, rfl⟩
  | succ k ih =>
    intro layer pos index j hl hp hi
    have hp2 : pos / 2 < 2 ^ k := by rw [pow_succ] at hp; omega
    have hnl : (nextLayer H layer).length = 2 ^ k := nextLayer_length H (2 ^ k) layer (by rw [hl, pow_succ]; ring)
    have hsh : index >>> (j + 1 + 1) = pos / 2 := by
      rw [Nat.shiftRight_succ, hi]
    obtain ⟨root, h, path, hh, hroot, hpath, hplen, hup⟩ := ih (nextLayer H layer) (pos / 2) index (j + 1) hnl hp2 hsh
    have hlen := layersAbove_length H k (nextLayer H layer)
    have h0 : 2 * (pos / 2) < layer.length := by rw [hl, pow_succ]; omega
    have h1 : 2 * (pos / 2) + 1 < layer.length := by rw [hl, pow_succ]; omega
    have hg := nextLayer_get H (pos / 2) layer _ _ (List.getElem?_eq_getElem h0) (List.getElem?_eq_getElem h1)
    rw [hh] at hg
    have hg' := Option.some.inj hg
    have htake : (layersAbove H (k + 1) layer).take ((layersAbove H (k + 1) layer).length - 1) =
        layer :: (layersAbove H k (nextLayer H layer)).take ((layersAbove H k (nextLayer H layer)).length - 1) := by
      simp [layersAbove, hlen]
    have hlast : (layersAbove H (k + 1) layer).getLast? = (layersAbove H k (nextLayer H layer)).getLast? := by
      rw [show layersAbove H (k + 1) layer = layer :: layersAbove H k (nextLayer H layer) from rfl, List.getLast?_cons]
      rcases hc : (layersAbove H k (nextLayer H layer)) with _ | ⟨a, l⟩
      · rw [hc] at hlen; simp at hlen
      · rw [List.getLast?_cons]; rfl
    rw [hlast, htake]
    simp only [List.zipIdx_cons, List.mapM_cons, Option.bind_eq_bind, Option.pure_def]
    rw [hpath, hi, hroot]
    rcases Nat.mod_two_eq_zero_or_one pos with hm | hm
    · have hpos : pos = 2 * (pos / 2) := by omega
      refine ⟨root, layer[2 * (pos / 2)], layer[2 * (pos / 2) + 1] :: path, ?_, rfl, ?_, by simp [hplen], ?_⟩
      · conv_lhs => rw [hpos]
        exact List.getElem?_eq_getElem h0
      · have : pos ^^^ 1 = 2 * (pos / 2) + 1 := by
          conv_lhs => rw [hpos]
          exact xor_one_even _
        rw [this, List.getElem?_eq_getElem h1]
        simp
      · simp only [hashUp]
        rw [if_pos (by rw [Nat.and_one_is_mod]; exact hm), Nat.shiftRight_one, ← hg']
        exact hup
    · have hpos : pos = 2 * (pos / 2) + 1 := by omega
      refine ⟨root, layer[2 * (pos / 2) + 1], layer[2 * (pos / 2)] :: path, ?_, rfl, ?_, by simp [hplen], ?_⟩
      · conv_lhs => rw [hpos]
        exact List.getElem?_eq_getElem h1
      · have : pos ^^^ 1 = 2 * (pos / 2) := by
          conv_lhs => rw [hpos]
          exact xor_one_odd _
        rw [this, List.getElem?_eq_getElem h0]
        simp
      · simp only [hashUp]
        rw [if_neg (by rw [Nat.and_one_is_mod]; omega), Nat.shiftRight_one, ← hg']
        exact hup

theorem log2Strict_pow (k : ℕ) : log2Strict (2 ^ k) = some k := by
  simp [log2Strict, Nat.log_pow]

theorem merkelize_eq (H : MerkleHasher B E D) (values : List (FieldType B E)) (k : ℕ) (first : FieldType B E) (hfirst : values.head? = some first)
    (hlen : first.len = 2 ^ (k + 1)) (leaf : ℕ → FieldType B E) (digest : ℕ → D)
    (hleaf : ∀ j < 2 ^ (k + 1), leafAt values j = some (leaf j))
    (hdig : ∀ j < 2 ^ k, leafPairHashBatch H (leaf (2 * j)) (leaf (2 * j + 1)) = some (digest j)) :
    merkelize H values = some (layersAbove H k ((List.range (2 ^ k)).map digest)) := by
  have hp : 2 ^ (k + 1) = 2 * 2 ^ k := by rw [pow_succ]; ring
  have hfl : firstLayer H values first.len = some ((List.range (2 ^ k)).map digest) := by
    unfold firstLayer
    rw [hlen, hp, Nat.mul_div_cancel_left _ (by norm_num)]
    refine mapM_some' _ digest _ ?_
    intro j hj
    have hj' : j < 2 ^ k := by simpa using hj
    rw [hleaf (2 * j) (by omega), hleaf (2 * j + 1) (by omega)]
    exact hdig j hj'
  unfold merkelize
  simp only [hfirst, Option.bind_eq_bind, Option.bind_some, hfl]
  rw [hlen, log2Strict_pow]
  simp

/-- Building a tree over `2 ^ (k + 1)` leaves and opening it. -/
theorem tree_open (H : MerkleHasher B E D) (values : List (FieldType B E)) (k i : ℕ) (first : FieldType B E) (hfirst : values.head? = some first)
    (hlen : first.len = 2 ^ (k + 1)) (hi : i < 2 ^ (k + 1)) (leaf : ℕ → FieldType B E) (digest : ℕ → D)
    (hleaf : ∀ j < 2 ^ (k + 1), leafAt values j = some (leaf j))
    (hdig : ∀ j < 2 ^ k, leafPairHashBatch H (leaf (2 * j)) (leaf (2 * j + 1)) = some (digest j)) :
    ∃ t root path, MerkleTree.fromBatchLeaves H values = some t ∧ t.root = some root ∧ t.path i = some path ∧ path.length = k ∧
      hashUp H path (i >>> 1) (digest (i / 2)) = root ∧ t.inner.length = k + 1 := by
  have hp : 2 ^ (k + 1) = 2 * 2 ^ k := by rw [pow_succ]; ring
  have hm := merkelize_eq H values k first hfirst hlen leaf digest hleaf hdig
  have hi2 : i / 2 < 2 ^ k := by omega
  obtain ⟨root, h, path, hh, hroot, hpath, hpl, hup⟩ := hashUp_honest H k ((List.range (2 ^ k)).map digest) (i / 2) i 0 (by simp) hi2
    (by rw [zero_add, Nat.shiftRight_one])
  have hh' : digest (i / 2) = h := by
    rw [List.getElem?_map, List.getElem?_range hi2] at hh
    simpa using hh
  refine ⟨⟨_, values⟩, root, path, by unfold MerkleTree.fromBatchLeaves; rw [hm]; rfl, hroot, ?_, hpl, ?_, ?_⟩
  · unfold MerkleTree.path
    simp only [hfirst, Option.bind_eq_bind, Option.bind_some]
    rw [if_pos (by omega)]
    exact hpath
  · rw [Nat.shiftRight_one, hh']; exact hup
  · exact layersAbove_length H k _

theorem hashUp_bind (H : MerkleHasher B E D) :
    ∀ (path path' : List D) (x : ℕ) (h h' : D), path.length = path'.length → hashUp H path x h = hashUp H path' x h' →
      (h = h' ∧ path = path') ∨
        Collision (fun c : D × D => H.hashTwoDigests c.1 c.2) (hashUpCalls H path x h) (hashUpCalls H path' x h')
  | [], [], x, h, h', _, he => by
    left; exact ⟨he, rfl⟩
  | p :: ps, p' :: ps', x, h, h', hl, he => by
    simp only [hashUp] at he
    simp only [hashUpCalls]
    rcases hashUp_bind H ps ps' _ _ _ (by simpa using hl) he with ⟨h1, h2⟩ | ⟨a, ha, b, hb, hne, hab⟩
    · by_cases hx : x &&& 1 = 0
      · rw [if_pos hx, if_pos hx] at h1
        by_cases heq : ((h, p) : D × D) = (h', p')
        · left
          rw [Prod.mk.injEq] at heq
          exact ⟨heq.1, by rw [heq.2, h2]⟩
        · right
          exact ⟨(h, p), by rw [if_pos hx]; simp, (h', p'), by rw [if_pos hx]; simp, heq, h1⟩
      · rw [if_neg hx, if_neg hx] at h1
        by_cases heq : ((p, h) : D × D) = (p', h')
        · left
          rw [Prod.mk.injEq] at heq
          exact ⟨heq.2, by rw [heq.1, h2]⟩
        · right
          exact ⟨(p, h), by rw [if_neg hx]; simp, (p', h'), by rw [if_neg hx]; simp, heq, h1⟩
    · right
      exact ⟨a, List.mem_cons_of_mem _ ha, b, List.mem_cons_of_mem _ hb, hne, hab⟩

end Lemmas
