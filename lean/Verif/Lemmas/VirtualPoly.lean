import Verif.Model.VirtualPoly
import Verif.Lemmas.Interp
import Verif.Spec.Sumcheck

namespace Lemmas
open Model Spec

variable {F : Type} [Field F]

/-- The tables behind the addresses of a product. -/
def prodTables (heap : ℕ → Mle F) (fl is : List ℕ) : List (ℕ × List F) :=
  is.map fun i => ((heap (fl.getD i 0)).numVars, (heap (fl.getD i 0)).evals)

/-- Invariant of the builder: the virtual polynomial represents the terms `ts`. -/
structure VPInv (heap : ℕ → Mle F) (vp : VirtualPoly F) (ts : List (F × List (ℕ × List F))) : Prop where
  lookup : ∀ a i, vp.lookup.lookup a = some i → i < vp.flattened.length ∧ vp.flattened.getD i 0 = a
  idx : ∀ p ∈ vp.products, ∀ i ∈ p.2, i < vp.flattened.length
  vars : ∀ a ∈ vp.flattened, (heap a).numVars ≤ vp.maxNumVars
  terms : vp.products.map (fun p => (p.1, prodTables heap vp.flattened p.2)) = ts
  deg : ∀ p ∈ vp.products, p.2.length ≤ vp.maxDegree

omit [Field F] in
theorem getD_append_left (l r : List ℕ) (i : ℕ) (h : i < l.length) : (l ++ r).getD i 0 = l.getD i 0 := by
  rw [List.getD_eq_getElem?_getD, List.getD_eq_getElem?_getD, List.getElem?_append_left h]

theorem prodTables_append (heap : ℕ → Mle F) (fl r is : List ℕ) (h : ∀ i ∈ is, i < fl.length) :
    prodTables heap (fl ++ r) is = prodTables heap fl is := by
  unfold prodTables
  apply List.map_congr_left
  intro i hi
  rw [getD_append_left fl r i (h i hi)]

/-- `intern` returns an index of the address and only appends. -/
theorem intern_spec (vp : VirtualPoly F)
    (hl : ∀ a i, vp.lookup.lookup a = some i → i < vp.flattened.length ∧ vp.flattened.getD i 0 = a) (a : ℕ) :
    let r := vp.intern a
    (∃ suf, r.1.flattened = vp.flattened ++ suf ∧ ∀ x ∈ suf, x = a) ∧
    r.1.products = vp.products ∧ r.1.maxDegree = vp.maxDegree ∧ r.1.maxNumVars = vp.maxNumVars ∧
    r.2 < r.1.flattened.length ∧ r.1.flattened.getD r.2 0 = a ∧
    (∀ a i, r.1.lookup.lookup a = some i → i < r.1.flattened.length ∧ r.1.flattened.getD i 0 = a) := by
  unfold VirtualPoly.intern
  cases h : vp.lookup.lookup a with
  | some i =>
    obtain ⟨h1, h2⟩ := hl a i h
    exact ⟨⟨[], by simp⟩, rfl, rfl, rfl, h1, h2, hl⟩
  | none =>
    refine ⟨⟨[a], by simp⟩, rfl, rfl, rfl, by simp, by simp, ?_⟩
    intro b i hb
    simp only at hb ⊢
    rw [List.lookup_cons] at hb
    by_cases hba : b = a
    · simp only [hba, beq_self_eq_true] at hb
      simp only [Option.some.injEq] at hb
      subst hb; simp [hba]
    · have : (b == a) = false := by simp [hba]
      rw [this] at hb
      obtain ⟨h1, h2⟩ := hl b i hb
      refine ⟨by simp; omega, ?_⟩
      rw [getD_append_left _ _ _ h1, h2]

theorem internList_spec (as : List ℕ) (vp : VirtualPoly F)
    (hl : ∀ a i, vp.lookup.lookup a = some i → i < vp.flattened.length ∧ vp.flattened.getD i 0 = a) :
    let r := vp.internList as
    (∃ suf, r.1.flattened = vp.flattened ++ suf ∧ ∀ x ∈ suf, x ∈ as) ∧
    r.1.products = vp.products ∧ r.1.maxDegree = vp.maxDegree ∧ r.1.maxNumVars = vp.maxNumVars ∧
    (∀ i ∈ r.2, i < r.1.flattened.length) ∧ r.2.map (fun i => r.1.flattened.getD i 0) = as ∧
    (∀ a i, r.1.lookup.lookup a = some i → i < r.1.flattened.length ∧ r.1.flattened.getD i 0 = a) := by
  induction as generalizing vp with
  | nil => exact ⟨⟨[], by simp [VirtualPoly.internList]⟩, rfl, rfl, rfl, by simp [VirtualPoly.internList],
      by simp [VirtualPoly.internList], hl⟩
  | cons a as ih =>
    obtain ⟨⟨s1, e1, m1⟩, p1, d1, n1, l1, g1, k1⟩ := intern_spec vp hl a
    obtain ⟨⟨s2, e2, m2⟩, p2, d2, n2, l2, g2, k2⟩ := ih (vp.intern a).1 k1
    simp only [VirtualPoly.internList]
    refine ⟨⟨s1 ++ s2, by rw [e2, e1, List.append_assoc], ?_⟩, by rw [p2, p1], by rw [d2, d1],
      by rw [n2, n1], ?_, ?_, k2⟩
    · intro x hx
      rcases List.mem_append.mp hx with h | h
      · simp [m1 x h]
      · simp [m2 x h]
    · intro i hi
      rcases List.mem_cons.mp hi with rfl | h
      · rw [e2, List.length_append]; omega
      · exact l2 i h
    · rw [List.map_cons, g2]
      congr 1
      rw [e2, getD_append_left _ _ _ l1, g1]

theorem addMleList_inv (heap : ℕ → Mle F) (vp vp' : VirtualPoly F) (ts : List (F × List (ℕ × List F)))
    (h : VPInv heap vp ts) (as : List ℕ) (c : F) (hadd : vp.addMleList heap as c = some vp') :
    VPInv heap vp' (ts ++ [(c, as.map fun a => ((heap a).numVars, (heap a).evals))]) ∧
      vp'.maxNumVars = vp.maxNumVars := by
  unfold VirtualPoly.addMleList at hadd
  cases as with
  | nil => simp at hadd
  | cons a as =>
    simp only at hadd
    split at hadd
    swap
    · simp at hadd
    rename_i hall
    rw [List.all_eq_true] at hall
    set vp0 : VirtualPoly F := { vp with maxDegree := max vp.maxDegree (a :: as).length } with hvp0
    obtain ⟨⟨s, e, m⟩, p, d, n, l, g, k⟩ := internList_spec (a :: as) vp0 h.lookup
    simp only [Option.some.injEq] at hadd
    subst hadd
    generalize vp0.internList (a :: as) = r at *
    have hidx : ∀ q ∈ vp.products, ∀ i ∈ q.2, i < vp0.flattened.length := h.idx
    refine ⟨⟨k, ?_, ?_, ?_, ?_⟩, n⟩
    · intro q hq i hi
      simp only [p] at hq
      rcases List.mem_append.mp hq with hq | hq
      · rw [e, List.length_append]
        have := hidx q hq i hi
        omega
      · simp only [List.mem_singleton] at hq
        subst hq
        exact l i hi
    · intro b hb
      simp only [e] at hb
      simp only [n]
      rcases List.mem_append.mp hb with hb | hb
      · exact h.vars b hb
      · have := hall b (m b hb)
        simp only [Bool.and_eq_true, decide_eq_true_eq] at this
        exact this.1
    · simp only [p, List.map_append, List.map_cons, List.map_nil]
      congr 1
      · rw [← h.terms]
        apply List.map_congr_left
        intro q hq
        rw [e, prodTables_append heap _ _ _ (hidx q hq)]
      · congr 2
        unfold prodTables
        have e3 : ((heap a).numVars, (heap a).evals) :: as.map (fun a => ((heap a).numVars, (heap a).evals))
            = (a :: as).map (fun a => ((heap a).numVars, (heap a).evals)) := rfl
        rw [e3, ← g, List.map_map]
        rfl
    · intro q hq
      simp only [p] at hq
      simp only [d]
      rcases List.mem_append.mp hq with hq | hq
      · exact (h.deg q hq).trans (le_max_left _ _)
      · simp only [List.mem_singleton] at hq
        subst hq
        have : r.2.length = (a :: as).length := by rw [← g, List.length_map]
        simp only [this]
        exact le_max_right _ _

theorem mulByMle_inv (heap : ℕ → Mle F) (vp vp' : VirtualPoly F) (ts : List (F × List (ℕ × List F)))
    (h : VPInv heap vp ts) (a : ℕ) (c : F) (hmul : vp.mulByMle heap a c = some vp') :
    VPInv heap vp' (ts.map fun t => (t.1 * c, t.2 ++ [((heap a).numVars, (heap a).evals)])) := by
  unfold VirtualPoly.mulByMle at hmul
  split at hmul
  swap
  · simp at hmul
  rename_i hv
  obtain ⟨⟨s, e, m⟩, p, d, n, l, g, k⟩ := intern_spec vp h.lookup a
  simp only [Option.some.injEq] at hmul
  subst hmul
  generalize vp.intern a = r at *
  refine ⟨k, ?_, ?_, ?_, ?_⟩
  · intro q hq i hi
    simp only [p] at hq
    obtain ⟨q', hq', rfl⟩ := List.mem_map.mp hq
    simp only [List.mem_append, List.mem_singleton] at hi
    rcases hi with hi | rfl
    · have := h.idx q' hq' i hi
      simp only [e, List.length_append]; omega
    · exact l
  · intro b hb
    simp only [e] at hb
    simp only [n]
    rcases List.mem_append.mp hb with hb | hb
    · exact h.vars b hb
    · rw [m b hb, hv]
  · simp only [p]
    rw [← h.terms, List.map_map, List.map_map]
    apply List.map_congr_left
    intro q hq
    simp only [Function.comp]
    congr 1
    have e2 := prodTables_append heap vp.flattened s q.2 (h.idx q hq)
    rw [← e] at e2
    rw [← e2]
    unfold prodTables
    rw [List.map_append, List.map_singleton, g]
  · intro q hq
    simp only [p] at hq
    obtain ⟨q', hq', rfl⟩ := List.mem_map.mp hq
    simp only [List.length_append, List.length_singleton, d]
    have := h.deg q' hq'
    omega

theorem merge_inv (heap : ℕ → Mle F) (vp vp' other : VirtualPoly F)
    (ts ts2 : List (F × List (ℕ × List F)))
    (h : VPInv heap vp ts) (h2 : VPInv heap other ts2) (hm : vp.merge heap other = some vp') :
    VPInv heap vp' (ts ++ ts2) ∧ vp'.maxNumVars = vp.maxNumVars := by
  rw [← h2.terms]
  unfold VirtualPoly.merge at hm
  have hidx := h2.idx
  generalize other.products = ps at *
  clear h2
  induction ps generalizing vp ts with
  | nil =>
    simp only [List.foldlM_nil, Option.pure_def, Option.some.injEq] at hm
    subst hm
    exact ⟨by simpa using h, rfl⟩
  | cons p ps ih =>
    rw [List.foldlM_cons] at hm
    have hcur : (p.2.mapM fun i => other.flattened[i]?) = some (p.2.map fun i => other.flattened.getD i 0) := by
      apply mapM_some
      intro i hi
      have := hidx p (by simp) i hi
      simp [List.getD_eq_getElem?_getD, this]
    rw [hcur] at hm
    simp only [Option.bind_eq_bind, Option.bind_some] at hm
    cases hadd : vp.addMleList heap (p.2.map fun i => other.flattened.getD i 0) p.1 with
    | none => rw [hadd] at hm; simp at hm
    | some v1 =>
      rw [hadd] at hm
      simp only [Option.bind_some] at hm
      obtain ⟨hi1, hn1⟩ := addMleList_inv heap vp v1 ts h _ _ hadd
      obtain ⟨hi2, hn2⟩ := ih v1 _ hi1 hm (fun q hq => hidx q (by simp [hq]))
      refine ⟨?_, by rw [hn2, hn1]⟩
      rw [List.map_cons]
      have : prodTables heap other.flattened p.2
          = (p.2.map fun i => other.flattened.getD i 0).map fun a => ((heap a).numVars, (heap a).evals) := by
        rw [List.map_map]; rfl
      rw [this]
      simpa using hi2

theorem evaluate_inv (heap : ℕ → Mle F) (vp : VirtualPoly F) (ts : List (F × List (ℕ × List F)))
    (h : VPInv heap vp ts) (htab : ∀ a ∈ vp.flattened, (heap a).evals.length = 2 ^ (heap a).numVars)
    (pt : List F) (hpt : pt.length = vp.maxNumVars) :
    vp.evaluate heap pt = some (sumOfProducts ts pt) := by
  unfold VirtualPoly.evaluate
  rw [if_pos hpt.symm]
  rw [mapM_some _ (fun a => mle (heap a).evals (pt.take (heap a).numVars))]
  · simp only [Option.bind_eq_bind, Option.bind_some]
    rw [mapM_some _ (fun p => ((prodTables heap vp.flattened p.2).map
      fun m => mle m.2 (pt.take m.1)).prod * p.1)]
    · simp only [Option.bind_some]
      congr 1
      unfold sumOfProducts
      rw [← h.terms, List.map_map]
      congr 1
      apply List.map_congr_left
      intro p _
      simp [mul_comm]
    · intro p hp
      rw [mapM_some _ (fun i => mle (heap (vp.flattened.getD i 0)).evals
        (pt.take (heap (vp.flattened.getD i 0)).numVars))]
      · simp only [Option.bind_some]
        congr 3
        unfold prodTables
        rw [List.map_map]; rfl
      · intro i hi
        have hi' := h.idx p hp i hi
        simp [List.getD_eq_getElem?_getD, hi']
  · intro a ha
    have hv := h.vars a ha
    rw [if_pos (by omega), evaluate_eq (heap a) (htab a ha) _ (by rw [List.length_take]; omega)]

end Lemmas
