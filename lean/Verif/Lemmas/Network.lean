import Verif.Lemmas.NetLayers

/-!
All lookups of a feed-forward network: what is looked up by the nodes and what the tables account for is the same; the challenges of the tables.
-/

namespace Lemmas

open Model Spec Props

section
variable {F C CP : Type} [Field F] [DecidableEq F] {T : Transcript F}

/-- Every table gets a challenge, the tables without a label get the challenge one. -/
theorem tableChallenges_some (T : Transcript F) (tables : List TableType) (t : TableType) : ∀ ts : T.State, t ∈ tables →
    ∃ csc, mapGet t (tableChallenges T tables ts).1 = some csc ∧ (tableLabel t = none → csc = 1) := by
  induction tables with
  | nil => intro ts h; simp at h
  | cons u tables ih =>
    intro ts h
    simp only [tableChallenges, mapGet]
    by_cases hu : u = t
    · subst hu
      rw [if_pos rfl]
      refine ⟨_, rfl, ?_⟩
      intro hl
      simp [hl]
    · rw [if_neg hu]
      exact ih _ ((List.mem_cons.1 h).resolve_left fun h => hu h.symm)

theorem rowsOf_cons (x : TableType × List (List ℤ)) (lk : List (TableType × List (List ℤ))) (t : TableType) :
    rowsOf (x :: lk) t = (if x.1 = t then x.2 else []) ++ rowsOf lk t := by
  unfold rowsOf
  by_cases h : x.1 = t <;> simp [h]

/-- The lookups in all tables together are all the lookups. -/
theorem lookSum_tables (p : ℕ) (c : F) (ch : List (TableType × F)) (tables : List TableType) (hnd : tables.Nodup) (lk : List (TableType × List (List ℤ))) (h : ∀ x ∈ lk, x.1 ∈ tables) :
    (tables.map fun t => invSum p c ((mapGet t ch).getD 0) (rowsOf lk t)).sum = lookSum p c ch lk := by
  induction lk with
  | nil => simp [rowsOf, lookSum, invSum]
  | cons x lk ih =>
    rw [lookSum, List.map_cons, List.sum_cons, ← lookSum, ← ih fun y hy => h y (by simp [hy])]
    simp only [rowsOf_cons, invSum_append]
    rw [List.sum_map_add]
    congr 1
    have hx := h x (by simp)
    clear ih h
    induction tables with
    | nil => simp at hx
    | cons t tables ih =>
      rw [List.nodup_cons] at hnd
      rw [List.map_cons, List.sum_cons]
      by_cases ht : x.1 = t
      · subst ht
        rw [if_pos rfl]
        rw [List.map_congr_left (g := fun _ => (0 : F)) (by
          intro u hu
          have hne : x.1 ≠ u := fun hh => hnd.1 (by rw [hh]; exact hu)
          rw [if_neg hne]
          simp [invSum])]
        simp
      · rw [if_neg ht, ih hnd.2 ((List.mem_cons.1 hx).resolve_left ht)]
        simp [invSum]

/-- The fractions of all nodes. -/
theorem node_fractions_sum (p : ℕ) (c : F) (ch : List (TableType × F)) (fr : ℕ → Option (List (F × F))) (look : ℕ → Option (List (TableType × List (List ℤ)))) (order : List ℕ) :
    ∀ (frn : List (List (F × F))) (lks : List (List (TableType × List (List ℤ)))), order.mapM fr = some frn → order.mapM look = some lks →
    (∀ id ∈ order, ∀ f lk, fr id = some f → look id = some lk → (∀ x ∈ f, x.2 ≠ 0) ∧ fracSum f = -lookSum p c ch lk) →
    (∀ x ∈ frn.flatten, x.2 ≠ 0) ∧ fracSum frn.flatten = -lookSum p c ch lks.flatten := by
  induction order with
  | nil =>
    intro frn lks h1 h2 _
    simp only [List.mapM_nil, Option.pure_def, Option.some.injEq] at h1 h2
    subst h1 h2
    simp [fracSum, lookSum]
  | cons a order ih =>
    intro frn lks h1 h2 h
    simp only [List.mapM_cons, Option.bind_eq_bind, Option.bind_eq_some_iff, Option.pure_def, Option.some.injEq] at h1 h2
    obtain ⟨f, hf, frn', hfr, rfl⟩ := h1
    obtain ⟨lk, hl, lks', hlk, rfl⟩ := h2
    obtain ⟨i1, i2⟩ := ih frn' lks' hfr hlk fun id hid => h id (by simp [hid])
    obtain ⟨j1, j2⟩ := h a (by simp) f lk hf hl
    refine ⟨?_, ?_⟩
    · intro x hx
      rw [List.flatten_cons, List.mem_append] at hx
      exact hx.elim (j1 x) (i1 x)
    · rw [List.flatten_cons, fracSum_append, List.flatten_cons, i2, j2]
      simp only [lookSum, List.map_append, List.sum_append]
      ring

end

end Lemmas
