import Verif.Spec.Graph
import Verif.Lemmas.Commit
import Mathlib.Data.Fintype.Pigeonhole
import Mathlib.Data.List.Sort
import Mathlib.Tactic

namespace Lemmas

open Model Spec

variable {L : Type}

/-- What the iteration yields, for any dependencies. -/
theorem nodeOrder_spec (deps : ℕ → List ℕ) : ∀ (fuel : ℕ) (u : List ℕ), u.Nodup → u.length ≤ fuel →
    (nodeOrder deps fuel u).Nodup ∧ (∀ x ∈ nodeOrder deps fuel u, x ∈ u) ∧
    (∀ done x rest, nodeOrder deps fuel u = done ++ x :: rest → ∀ d ∈ deps x, d ∈ u → d ∈ done) ∧
    (∀ x ∈ u, x ∉ nodeOrder deps fuel u → ∃ d ∈ deps x, d ∈ u ∧ d ∉ nodeOrder deps fuel u)
  | 0, u, _, hf => by
    have : u = [] := List.length_eq_zero_iff.mp (by omega)
    subst this
    simp [nodeOrder]
  | fuel + 1, u, hu, hf => by
    cases hfind : u.find? (fun x => (deps x).all fun d => !u.contains d) with
    | none =>
      have e : nodeOrder deps (fuel + 1) u = [] := by simp only [nodeOrder, hfind]
      rw [e]
      refine ⟨List.nodup_nil, by simp, by simp, fun x hx _ => ?_⟩
      have := List.find?_eq_none.mp hfind x hx
      simp only [List.all_eq_true, not_forall, Bool.not_eq_eq_eq_not, Bool.not_true, List.contains_eq_mem, decide_eq_false_iff_not,
        not_not] at this
      obtain ⟨d, hd, hdu⟩ := this
      exact ⟨d, hd, hdu, by simp⟩
    | some x =>
      have e : nodeOrder deps (fuel + 1) u = x :: nodeOrder deps fuel (u.erase x) := by simp only [nodeOrder, hfind]
      have hx : x ∈ u := List.mem_of_find?_eq_some hfind
      have hp := List.find?_some hfind
      simp only [List.all_eq_true, Bool.not_eq_eq_eq_not, Bool.not_true, List.contains_eq_mem, decide_eq_false_iff_not] at hp
      obtain ⟨i₁, i₂, i₃, i₄⟩ := nodeOrder_spec deps fuel (u.erase x) (hu.erase x) (by rw [List.length_erase_of_mem hx]; omega)
      have hmem : ∀ y, y ∈ u.erase x ↔ y ≠ x ∧ y ∈ u := fun y => hu.mem_erase_iff
      rw [e]
      refine ⟨List.nodup_cons.mpr ⟨fun h => ((hmem x).mp (i₂ x h)).1 rfl, i₁⟩, ?_, ?_, ?_⟩
      · intro y hy
        rcases List.mem_cons.mp hy with rfl | hy
        · exact hx
        · exact ((hmem y).mp (i₂ y hy)).2
      · intro done y rest heq d hd hdu
        cases done with
        | nil =>
          simp only [List.nil_append, List.cons.injEq] at heq
          exact absurd hdu (hp d (heq.1 ▸ hd))
        | cons z done =>
          simp only [List.cons_append, List.cons.injEq] at heq
          obtain ⟨rfl, heq⟩ := heq
          by_cases hdx : d = x
          · simp [hdx]
          · exact List.mem_cons_of_mem _ (i₃ done y rest heq d hd ((hmem d).mpr ⟨hdx, hdu⟩))
      · intro y hy hny
        simp only [List.mem_cons, not_or] at hny
        obtain ⟨d, hd, hdu, hdn⟩ := i₄ y ((hmem y).mpr ⟨hny.1, hy⟩) hny.2
        refine ⟨d, hd, ((hmem d).mp hdu).2, ?_⟩
        simp only [List.mem_cons, not_or]
        exact ⟨((hmem d).mp hdu).1, hdn⟩

/-- In a finite set where every element has a successor in the set, every element reaches a cycle. -/
theorem reachesCycle_of_successors (r : ℕ → ℕ → Prop) (S : Finset ℕ) (h : ∀ x ∈ S, ∃ y ∈ S, r x y) (x : ℕ) (hx : x ∈ S) : ReachesCycle r x := by
  classical
  choose! f hfS hf using h
  have hS : ∀ n, f^[n] x ∈ S := fun n => by
    induction n with
    | zero => exact hx
    | succ n ih => rw [Function.iterate_succ_apply']; exact hfS _ ih
  have hstep : ∀ n, r (f^[n] x) (f^[n + 1] x) := fun n => by
    rw [Function.iterate_succ_apply']
    exact hf _ (hS n)
  have hreach : ∀ n, Relation.ReflTransGen r x (f^[n] x) := fun n => by
    induction n with
    | zero => exact Relation.ReflTransGen.refl
    | succ n ih => exact ih.tail (hstep n)
  have htrans : ∀ m k, Relation.TransGen r (f^[m] x) (f^[m + k + 1] x) := fun m k => by
    induction k with
    | zero => exact Relation.TransGen.single (hstep m)
    | succ k ih => exact ih.tail (hstep (m + k + 1))
  obtain ⟨i, j, hij, he⟩ := Finite.exists_ne_map_eq_of_infinite (fun n : ℕ => (⟨f^[n] x, hS n⟩ : S))
  have he' : f^[i] x = f^[j] x := congrArg Subtype.val he
  rcases Nat.lt_or_gt_of_ne hij with hlt | hlt
  · refine ⟨f^[i] x, hreach i, ?_⟩
    have := htrans i (j - i - 1)
    rw [show i + (j - i - 1) + 1 = j by omega, ← he'] at this
    exact this
  · refine ⟨f^[j] x, hreach j, ?_⟩
    have := htrans j (i - j - 1)
    rw [show j + (i - j - 1) + 1 = i by omega, he'] at this
    exact this

/-- If each element of the order comes after all its successors, no element of the order reaches a cycle. -/
theorem not_reachesCycle_of_order (r : ℕ → ℕ → Prop) (order : List ℕ)
    (h : ∀ done x rest, order = done ++ x :: rest → ∀ y, r x y → y ∈ done) (x : ℕ) (hx : x ∈ order) : ¬ReachesCycle r x := by
  have key : ∀ x y, x ∈ order → r x y → y ∈ order ∧ order.idxOf y < order.idxOf x := by
    intro x y hx hxy
    obtain ⟨done, rest, rfl, hnd⟩ := List.eq_append_cons_of_mem hx
    have hy := h done x rest rfl y hxy
    refine ⟨List.mem_append_left _ hy, ?_⟩
    rw [List.idxOf_append_of_mem hy, List.idxOf_append_of_notMem hnd, List.idxOf_cons_self]
    have := List.idxOf_lt_length_of_mem hy
    omega
  have trans : ∀ x y, x ∈ order → Relation.TransGen r x y → y ∈ order ∧ order.idxOf y < order.idxOf x := by
    intro x y hx hxy
    induction hxy with
    | single h => exact key _ _ hx h
    | tail _ h ih =>
      have := key _ _ ih.1 h
      exact ⟨this.1, this.2.trans ih.2⟩
  rintro ⟨y, hxy, hyy⟩
  have hy : y ∈ order := by
    rcases Relation.reflTransGen_iff_eq_or_transGen.mp hxy with rfl | h
    · exact hx
    · exact (trans x y hx h).1
  have := (trans y y hy hyy).2
  omega

theorem sortedIds_nodup (g : Graph L) (h : (g.map (·.1)).Nodup) : (sortedIds g).Nodup :=
  (List.perm_insertionSort _ _).nodup_iff.mpr h

theorem mem_sortedIds (g : Graph L) (x : ℕ) : x ∈ sortedIds g ↔ ∃ n, (x, n) ∈ g := by
  rw [sortedIds, (List.perm_insertionSort _ _).mem_iff]
  simp

theorem sortedIds_length (g : Graph L) : (sortedIds g).length = g.length := by
  simp [sortedIds]

theorem mapGet_iff_mem (g : Graph L) (h : (g.map (·.1)).Nodup) (x : ℕ) (n : Node L) : mapGet x g = some n ↔ (x, n) ∈ g := by
  rw [mapGet_eq_lookup]
  exact ⟨lookup_some_mem, lookup_of_mem h⟩

/-- The order for a relation that is given by dependencies. -/
theorem order_spec (g : Graph L) (h : (g.map (·.1)).Nodup) (deps : ℕ → List ℕ) (r : ℕ → ℕ → Prop)
    (hr : ∀ x y, r x y ↔ (∃ n, (x, n) ∈ g) ∧ y ∈ deps x ∧ ∃ n, (y, n) ∈ g) :
    Respects g r (nodeOrder deps g.length (sortedIds g)) ∧
    ∀ x, x ∈ nodeOrder deps g.length (sortedIds g) ↔ (∃ n, (x, n) ∈ g) ∧ ¬ReachesCycle r x := by
  classical
  obtain ⟨h₁, h₂, h₃, h₄⟩ := nodeOrder_spec deps g.length (sortedIds g) (sortedIds_nodup g h) (sortedIds_length g).le
  have hb : ∀ done x rest, nodeOrder deps g.length (sortedIds g) = done ++ x :: rest → ∀ y, r x y → y ∈ done := by
    intro done x rest he y hxy
    obtain ⟨-, hy, hyg⟩ := (hr x y).mp hxy
    exact h₃ done x rest he y hy ((mem_sortedIds g y).mpr hyg)
  refine ⟨⟨h₁, fun x hx => (mem_sortedIds g x).mp (h₂ x hx), hb⟩, fun x => ⟨fun hx => ?_, fun ⟨hx, hc⟩ => ?_⟩⟩
  · exact ⟨(mem_sortedIds g x).mp (h₂ x hx), not_reachesCycle_of_order r _ hb x hx⟩
  · by_contra hn
    refine hc (reachesCycle_of_successors r ((sortedIds g).toFinset.filter fun y => y ∉ nodeOrder deps g.length (sortedIds g)) ?_ x ?_)
    · intro y hy
      simp only [Finset.mem_filter, List.mem_toFinset] at hy
      obtain ⟨d, hd, hdu, hdn⟩ := h₄ y hy.1 hy.2
      exact ⟨d, by simp [hdu, hdn], (hr y d).mpr ⟨(mem_sortedIds g y).mp hy.1, hd, (mem_sortedIds g d).mp hdu⟩⟩
    · simp only [Finset.mem_filter, List.mem_toFinset]
      exact ⟨(mem_sortedIds g x).mpr hx, hn⟩

theorem takesFrom_iff (g : Graph L) (h : (g.map (·.1)).Nodup) (x y : ℕ) :
    TakesFrom g x y ↔ (∃ n, (x, n) ∈ g) ∧ y ∈ forwardDeps g x ∧ ∃ n, (y, n) ∈ g := by
  constructor
  · rintro ⟨⟨n, hn, e, he, hey⟩, hy⟩
    refine ⟨⟨n, hn⟩, ?_, hy⟩
    rw [forwardDeps, (mapGet_iff_mem g h x n).mpr hn]
    exact List.mem_filterMap.mpr ⟨e, he, hey⟩
  · rintro ⟨⟨n, hn⟩, hd, hy⟩
    rw [forwardDeps, (mapGet_iff_mem g h x n).mpr hn] at hd
    obtain ⟨e, he, hey⟩ := List.mem_filterMap.mp hd
    exact ⟨⟨n, hn, e, he, hey⟩, hy⟩

theorem givesTo_iff (g : Graph L) (h : (g.map (·.1)).Nodup) (x y : ℕ) :
    GivesTo g x y ↔ (∃ n, (x, n) ∈ g) ∧ y ∈ backwardDeps g x ∧ ∃ n, (y, n) ∈ g := by
  constructor
  · rintro ⟨⟨n, hn, w, hw, e, he, hey⟩, hy⟩
    refine ⟨⟨n, hn⟩, ?_, hy⟩
    rw [backwardDeps, (mapGet_iff_mem g h x n).mpr hn]
    exact List.mem_filterMap.mpr ⟨e, List.mem_flatten.mpr ⟨w, hw, he⟩, hey⟩
  · rintro ⟨⟨n, hn⟩, hd, hy⟩
    rw [backwardDeps, (mapGet_iff_mem g h x n).mpr hn] at hd
    obtain ⟨e, he, hey⟩ := List.mem_filterMap.mp hd
    obtain ⟨w, hw, he⟩ := List.mem_flatten.mp he
    exact ⟨⟨n, hn, w, hw, e, he, hey⟩, hy⟩

theorem popNodes_spec : ∀ (ids : List ℕ) (g : Graph L), ids.Nodup → (g.map (·.1)).Nodup → (∀ x ∈ ids, ∃ n, (x, n) ∈ g) →
    ∃ out, popNodes ids.length ids.reverse g = some out ∧ out.map (·.1) = ids ∧ ∀ x ∈ out, x ∈ g
  | [], g, _, _, _ => ⟨[], rfl, rfl, by simp⟩
  | id :: ids, g, hn, hg, hm => by
    obtain ⟨n, hid⟩ := hm id (by simp)
    obtain ⟨rest, hr⟩ := mapRemove_isSome (lookup_of_mem hg hid)
    obtain ⟨-, r₂, r₃, -⟩ := mapRemove_spec hr
    have hg' : (rest.map (·.1)).Nodup := hg.sublist (r₂.map _)
    obtain ⟨out, h₁, h₂, h₃⟩ := popNodes_spec ids rest (List.nodup_cons.mp hn).2 hg' (fun x hx => by
      obtain ⟨m, hxm⟩ := hm x (by simp [hx])
      refine ⟨m, lookup_some_mem ((r₃ x ?_).trans (lookup_of_mem hg hxm))⟩
      rintro rfl
      exact (List.nodup_cons.mp hn).1 hx)
    refine ⟨(id, n) :: out, ?_, by simp [h₂], ?_⟩
    · simp [List.length_cons, List.reverse_cons, popNodes, List.getLast?_concat, List.dropLast_concat, hr, h₁]
    · intro x hx
      rcases List.mem_cons.mp hx with rfl | hx
      · exact hid
      · exact r₂.subset (h₃ x hx)

end Lemmas
