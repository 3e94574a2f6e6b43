import Verif.Lemmas.Basefold
import Verif.Lemmas.Layers
import Verif.Lemmas.Distributed
import Verif.Lemmas.LookupLayers
import Verif.Spec.Basefold

/-! What acceptance of an opening means. -/

open Spec Model Polynomial

namespace Lemmas

variable {E : Type} [Field E]

theorem openSum_nil (f point : List E) : openSum f point [] = mle f point := by
  unfold openSum
  simp only [List.append_nil, List.length_nil, Nat.sub_zero]
  exact cubeSum_eqPoly_mle point f

theorem openSum_split (f point s : List E) (h : s.length < point.length) :
    openSum f point s = openSum f point (0 :: s) + openSum f point (1 :: s) := by
  unfold openSum
  obtain ⟨n, hn⟩ : ∃ n, point.length - s.length = n + 1 := ⟨point.length - s.length - 1, by omega⟩
  rw [hn, cubeSum_append n 1]
  simp only [pow_one, Finset.sum_range_succ, Finset.sum_range_zero, zero_add, List.length_cons,
    show point.length - (s.length + 1) = n by omega]
  have h0 : (bitsPoint 1 0 : List E) = [0] := by simp [bitsPoint]
  have h1 : (bitsPoint 1 1 : List E) = [1] := by simp [bitsPoint]
  rw [h0, h1]
  simp only [List.append_assoc, List.singleton_append]

variable [DecidableEq E]

theorem sumcheckEquations_sound (f point : List E) : ∀ (cs s : List E) (ms : List (List E)) (claim : E),
    s.length + cs.length ≤ point.length → sumcheckEquations ms cs claim (openSum f point (cs.reverse ++ s)) = some () →
    claim = openSum f point s ∨ ∃ (i : ℕ) (m : List E), i < cs.length ∧ ms[i]? = some m ∧
      (∃ X, quadEval m X ≠ openSum f point (X :: ((cs.take i).reverse ++ s))) ∧
      quadEval m (cs.getD i 0) = openSum f point (cs.getD i 0 :: ((cs.take i).reverse ++ s)) := by
  intro cs
  induction cs with
  | nil => intro s ms claim _ h; rcases ms with _ | ⟨m, ms⟩ <;> simp [sumcheckEquations] at h
  | cons c cs ih =>
    intro s ms claim hlen h
    simp only [List.length_cons] at hlen
    rcases ms with _ | ⟨m, ms⟩
    · simp [sumcheckEquations] at h
    simp only [sumcheckEquations, Option.bind_eq_bind] at h
    rcases h0 : m[0]? with _ | a
    · simp [degree2ZeroPlusOne, h0] at h
    rcases h1 : m[1]? with _ | b
    · simp [degree2ZeroPlusOne, h0, h1] at h
    rcases h2 : m[2]? with _ | d
    · simp [degree2ZeroPlusOne, h0, h1, h2] at h
    have hq : ∀ X, quadEval m X = a + X * b + X * X * d := by
      intro X; simp [quadEval, List.getD_eq_getElem?_getD, h0, h1, h2]
    rw [show degree2ZeroPlusOne m = some (a + a + b + d) by simp [degree2ZeroPlusOne, h0, h1, h2],
      show degree2Eval m c = some (quadEval m c) by simp [degree2Eval, h0, h1, h2, hq]] at h
    simp only [Option.bind_some] at h
    by_cases hc : claim = a + a + b + d
    · rw [if_pos hc] at h
      have hnext : quadEval m c = openSum f point (c :: s) ∨ ∃ (i : ℕ) (m : List E), i < cs.length ∧ ms[i]? = some m ∧
          (∃ X, quadEval m X ≠ openSum f point (X :: ((cs.take i).reverse ++ (c :: s)))) ∧
          quadEval m (cs.getD i 0) = openSum f point (cs.getD i 0 :: ((cs.take i).reverse ++ (c :: s))) := by
        rcases cs with _ | ⟨c', cs⟩
        · left
          simp only at h
          by_cases hv : quadEval m c = openSum f point ([c].reverse ++ s)
          · simpa using hv
          · rw [if_neg hv] at h; cases h
        · exact ih (c :: s) ms (quadEval m c) (by simp only [List.length_cons] at hlen ⊢; omega) (by simpa using h)
      rcases hnext with hnext | ⟨i, m', g1, g2, ⟨X, g3⟩, g4⟩
      · by_cases hall : ∀ X, quadEval m X = openSum f point (X :: s)
        · left
          rw [openSum_split f point s (by omega), ← hall, ← hall, hq, hq, hc]
          ring
        · right
          rw [not_forall] at hall
          exact ⟨0, m, by simp, rfl, by simpa using hall, by simpa using hnext⟩
      · right
        refine ⟨i + 1, m', by simpa using g1, by simpa using g2, ⟨X, ?_⟩, ?_⟩
        · simpa using g3
        · simpa using g4
    · rw [if_neg hc] at h; cases h

theorem eqPoly_as_mle (p y : List E) (h : p.length = y.length) : eqPoly p y = mle ((List.range (2 ^ p.length)).map (chi p)) y := by
  rw [eqPoly_eq_sum p y h]
  unfold mle
  rw [h]
  refine Finset.sum_congr rfl fun i hi => ?_
  rw [getD_map_range' _ _ _ _ (Finset.mem_range.mp hi)]

/-- The true round polynomial has degree at most two. -/
theorem openSum_degree (f point s : List E) (h : s.length < point.length) :
    ∃ P : E[X], P.natDegree ≤ 2 ∧ ∀ X, openSum f point (X :: s) = P.eval X := by
  obtain ⟨n, hn⟩ : ∃ n, point.length = n + (s.length + 1) := ⟨point.length - (s.length + 1), by omega⟩
  have hterm : ∀ b : ℕ, ∃ P : E[X], P.natDegree ≤ 2 ∧ ∀ X, eqPoly point (bitsPoint n b ++ X :: s) * mle f (bitsPoint n b ++ X :: s) = P.eval X := by
    intro b
    obtain ⟨P, p1, p2⟩ := mle_append_affine ((List.range (2 ^ point.length)).map (chi point)) (bitsPoint n b) s [] []
    obtain ⟨Q, q1, q2⟩ := mle_append_affine f (bitsPoint n b) s [] []
    refine ⟨P * Q, (natDegree_mul_le).trans (by omega), ?_⟩
    intro X
    rw [eval_mul, ← p2, ← q2]
    simp only [List.nil_append, List.append_nil]
    rw [eqPoly_as_mle _ _ (by simp [bitsPoint, hn])]
  choose P h1 h2 using hterm
  refine ⟨∑ b ∈ Finset.range (2 ^ n), P b, ?_, ?_⟩
  · exact natDegree_sum_le_of_forall_le _ _ fun b _ => h1 b
  · intro X
    unfold openSum cubeSum
    rw [List.length_cons, show point.length - (s.length + 1) = n by omega, eval_finset_sum]
    exact Finset.sum_congr rfl fun b _ => h2 b X

/-! ### Queries -/

variable {B D : Type} [DecidableEq D]

/-- The value of the round's fold at the pair `p`, with the verifier's coefficients. -/
def FoldTo (S : CodeScheme E) (level pos : ℕ) (c : E) (p : E × E) (v : E) : Prop :=
  ∃ x, S.verifierCoeffs level pos = some x ∧ interpolate2Weights x.1 p.1 x.2.1 p.2 x.2.2 c = v

theorem queryFold_sound (S : CodeScheme E) (embed : B → E) (numVars : ℕ) (final : List E) :
    ∀ (cs : List E) (i idx : ℕ) (oracle : List (CodeQuery B E D)) (cur : E × E),
      queryFold S embed numVars final cs i oracle (idx ||| 1) cur = some () →
      ∀ k c, cs[k]? = some c → ∃ p, ((cur :: oracle.map fun q => q.points.toExt embed)[k]? = some p) ∧ ∃ v,
        FoldTo S (numVars + S.rateLog - (i + k + 1)) (idx / 2 ^ (k + 1)) c p v ∧
        (k + 1 = cs.length → final[idx / 2 ^ (k + 1)]? = some v) ∧
        (k + 1 < cs.length → ∃ q, oracle[k]? = some q ∧
          v = if idx / 2 ^ (k + 1) % 2 = 0 then (q.points.toExt embed).1 else (q.points.toExt embed).2) := by
  intro cs
  induction cs with
  | nil => intro i idx oracle cur _ k c hk; simp at hk
  | cons c cs ih =>
    intro i idx oracle cur h k c0 hk
    have hor : idx ||| 1 = 2 * (idx / 2) + 1 := or_one idx
    rcases cs with _ | ⟨c', cs⟩
    · simp only [queryFold, hor, Option.bind_eq_bind, Option.bind_eq_some_iff, checkedSub, Nat.shiftRight_one] at h
      obtain ⟨left, h1, level, h2, x, h3, v, h4, h5⟩ := h
      rw [if_pos (by omega)] at h1
      obtain rfl := Option.some.inj h1
      by_cases hlev : i + 1 ≤ numVars + S.rateLog
      swap
      · rw [if_neg hlev] at h2; cases h2
      rw [if_pos hlev] at h2
      obtain rfl := Option.some.inj h2
      by_cases hv : interpolate2Weights x.1 cur.1 x.2.1 cur.2 x.2.2 c = v
      swap
      · rw [if_neg hv] at h5; cases h5
      rw [show (2 * (idx / 2) + 1 - 1) / 2 = idx / 2 by omega] at h3
      rw [show (2 * (idx / 2) + 1) / 2 = idx / 2 by omega] at h4
      rcases k with _ | k
      · simp at hk
        subst hk
        refine ⟨cur, rfl, v, ⟨x, by simpa using h3, hv⟩, fun _ => by simpa using h4, fun h => by simp at h⟩
      · simp at hk
    · simp only [queryFold, hor, Option.bind_eq_bind, Option.bind_eq_some_iff, checkedSub, Nat.shiftRight_one] at h
      obtain ⟨left, h1, level, h2, x, h3, q, h4, h5⟩ := h
      rw [if_pos (by omega)] at h1
      obtain rfl := Option.some.inj h1
      by_cases hlev : i + 1 ≤ numVars + S.rateLog
      swap
      · rw [if_neg hlev] at h2; cases h2
      rw [if_pos hlev] at h2
      obtain rfl := Option.some.inj h2
      rw [show (2 * (idx / 2) + 1 - 1) / 2 = idx / 2 by omega] at h3
      rw [show (2 * (idx / 2) + 1) / 2 = idx / 2 by omega, Nat.and_one_is_mod] at h5
      obtain ⟨qs, rfl⟩ : ∃ qs, oracle = q :: qs := by
        rcases oracle with _ | ⟨a, l⟩
        · simp at h4
        · simp at h4; subst h4; exact ⟨l, rfl⟩
      by_cases hv : interpolate2Weights x.1 cur.1 x.2.1 cur.2 x.2.2 c
          = if idx / 2 % 2 = 0 then (q.points.toExt embed).1 else (q.points.toExt embed).2
      swap
      · rw [if_neg hv] at h5; cases h5
      rw [if_pos hv] at h5
      rcases k with _ | k
      · simp at hk
        subst hk
        refine ⟨cur, rfl, _, ⟨x, by simpa using h3, hv⟩, fun h => by simp at h, fun _ => ⟨q, rfl, by simp⟩⟩
      · obtain ⟨p, p1, v, p2, p3, p4⟩ := ih (i + 1) (idx / 2) qs (q.points.toExt embed) h5 k c0 (by simpa using hk)
        have hd : idx / 2 / 2 ^ (k + 1) = idx / 2 ^ (k + 1 + 1) := by rw [Nat.div_div_eq_div_mul, pow_succ 2 (k + 1), mul_comm]
        rw [hd, show i + 1 + k + 1 = i + (k + 1) + 1 by omega] at p2
        rw [hd] at p3 p4
        exact ⟨p, by simpa using p1, v, p2, fun h => p3 (by simpa using h), fun h => by simpa using p4 (by simpa using h)⟩

theorem checkPaths_sound (H : MerkleHasher B E D) : ∀ (qs : List (CodeQuery B E D)) (roots : List D), checkPaths H qs roots = some () →
    ∀ (i : ℕ) (q : CodeQuery B E D) (r : D), qs[i]? = some q → roots[i]? = some r → q.checkPath H r = some () := by
  intro qs
  induction qs with
  | nil => intro roots _ i q r h; simp at h
  | cons q qs ih =>
    intro roots h i q' r' hq hr
    rcases roots with _ | ⟨r, roots⟩
    · simp at hr
    simp only [checkPaths, Option.bind_eq_bind, Option.bind_eq_some_iff] at h
    obtain ⟨_, h1, h2⟩ := h
    rcases i with _ | i
    · simp at hq hr; subst hq; subst hr; exact h1
    · exact ih roots h2 i q' r' (by simpa using hq) (by simpa using hr)

theorem checkQueries_sound (S : CodeScheme E) (env : BfEnv B E D) (cs : List E) (n : ℕ) (final : List E) (roots : List D) (root : D) :
    ∀ (qs : List (ℕ × SingleQuery B E D)) (idx : List ℕ), checkQueries S env cs n final roots root qs idx = some () →
      ∀ (j : ℕ) (q : ℕ × SingleQuery B E D) (x : ℕ), qs[j]? = some q → idx[j]? = some x → q.1 = x ∧ q.2.check S env cs n final roots root x = some () := by
  intro qs
  induction qs with
  | nil => intro idx _ j q x h; simp at h
  | cons q qs ih =>
    intro idx h j q' x' hq hx
    rcases idx with _ | ⟨x, idx⟩
    · simp at hx
    simp only [checkQueries] at h
    by_cases he : x = q.1
    swap
    · rw [if_neg he] at h; cases h
    rw [if_pos he] at h
    simp only [Option.bind_eq_bind, Option.bind_eq_some_iff] at h
    obtain ⟨_, h1, h2⟩ := h
    rcases j with _ | j
    · simp at hq hx; subst hq; subst hx; exact ⟨he.symm, by rw [he]; exact h1⟩
    · exact ih idx h2 j q' x' (by simpa using hq) (by simpa using hx)

end Lemmas
