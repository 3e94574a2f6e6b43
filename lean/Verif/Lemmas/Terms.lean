import Verif.Model.Terms
import Verif.Props.Sumcheck

/-! Honest sumchecks of sums of products of tables of the same size. -/

namespace Lemmas
open Spec Model Props

variable {F : Type} [Field F] [DecidableEq F]

/-- The value of a list of terms at a point: sum of coefficient times product of table extensions. -/
def termsVal (heap : ℕ → Mle F) (terms : List (F × List ℕ)) (pt : List F) : F :=
  (terms.map fun t => t.1 * (t.2.map fun a => mle (heap a).evals pt).prod).sum

theorem buildVP_built (heap : ℕ → Mle F) (n : ℕ) (terms : List (F × List ℕ)) (vp : VirtualPoly F)
    (h : buildVP heap n terms = some vp) :
    Built heap vp (terms.map fun t => (t.1, t.2.map fun a => ((heap a).numVars, (heap a).evals))) ∧
      vp.maxNumVars = n := by
  have gen : ∀ (terms : List (F × List ℕ)) (vp0 vp : VirtualPoly F) (ts0 : List (F × List (ℕ × List F))),
      Built heap vp0 ts0 →
      terms.foldlM (fun vp t => vp.addMleList heap t.2 t.1) vp0 = some vp →
      Built heap vp (ts0 ++ terms.map fun t => (t.1, t.2.map fun a => ((heap a).numVars, (heap a).evals))) ∧
        vp.maxNumVars = vp0.maxNumVars := by
    intro terms
    induction terms with
    | nil =>
      intro vp0 vp ts0 h0 h
      simp only [List.foldlM_nil, Option.pure_def, Option.some.injEq] at h
      subst h
      exact ⟨by simpa using h0, rfl⟩
    | cons t terms ih =>
      intro vp0 vp ts0 h0 h
      simp only [List.foldlM_cons, Option.bind_eq_bind, Option.bind_eq_some_iff] at h
      obtain ⟨vp1, h1, h2⟩ := h
      have hb := Built.add h0 t.2 t.1 h1
      obtain ⟨g1, g2⟩ := ih vp1 vp _ hb h2
      refine ⟨by simpa using g1, ?_⟩
      rw [g2]
      exact (addMleList_inv heap vp0 vp1 ts0 (built_inv heap vp0 ts0 h0) t.2 t.1 h1).2
  have := gen terms _ _ [] (Built.new n) h
  simpa [VirtualPoly.new] using this

/-- The honest prover on a sum of products of `n`-variable tables. -/
theorem proveTerms_spec (T : Transcript F) (threads : ℕ) (ht : 0 < threads) (heap : ℕ → Mle F) (n : ℕ)
    (htab : ∀ a, (heap a).numVars = n ∧ (heap a).evals.length = 2 ^ n) (terms : List (F × List ℕ))
    (hne : terms ≠ []) (hlen : ∀ t ∈ terms, t.2 ≠ [] ∧ t.2.length ≤ 5) (vp : VirtualPoly F)
    (hvp : buildVP heap n terms = some vp)
    (hchar : ∀ k : ℕ, 0 < k → k ≤ vp.maxDegree → (k : F) ≠ 0) (ts : T.State) :
    ∃ proof ts', proveTerms threads T heap n terms ts
        = some (proof, vp.flattened.map (fun a => mle (heap a).evals proof.point), ts') ∧ proof.point.length = n ∧
      ((∀ r ∈ proof.point, ∀ k : ℕ, k ≤ vp.maxDegree → r ≠ (k : F)) →
        verify T (cubeSum n (termsVal heap terms)) proof vp.maxDegree n ts
          = some (⟨proof.point, termsVal heap terms proof.point⟩, ts')) := by
  obtain ⟨hb, hnv⟩ := buildVP_built heap n terms vp hvp
  have hi := built_inv heap vp _ hb
  have hlen' : ∀ p ∈ vp.products, p.2 ≠ [] ∧ p.2.length ≤ 5 := by
    intro p hp
    have hm : (p.1, prodTables heap vp.flattened p.2) ∈
        (terms.map fun t => (t.1, t.2.map fun a => ((heap a).numVars, (heap a).evals))) := by
      rw [← hi.terms]; exact List.mem_map_of_mem hp
    obtain ⟨t, ht1, ht2⟩ := List.mem_map.mp hm
    obtain ⟨h1, h2⟩ := hlen t ht1
    have hl : p.2.length = t.2.length := by
      have := congrArg (fun x => x.2.length) ht2
      simpa [prodTables] using this.symm
    refine ⟨?_, by omega⟩
    intro h0
    rw [h0] at hl
    exact h1 (List.length_eq_zero_iff.mp hl.symm)
  have hpne : vp.products ≠ [] := by
    intro h
    have := hi.terms
    rw [h] at this
    simp at this
    exact hne this
  have hget : ∀ p ∈ vp.products, ∀ i ∈ p.2,
      (vp.flattened.map heap)[i]? = some (heap (vp.flattened.getD i 0)) := by
    intro p hp i hi'
    have := hi.idx p hp i hi'
    rw [List.getElem?_map, List.getElem?_eq_getElem this, List.getD_eq_getElem _ _ this]; rfl
  have hterms : ∀ pt : List F, pt.length = n →
      sumOfProducts (vp.products.map fun p => (p.1, p.2.map fun i =>
        (((vp.flattened.map heap).getD i ⟨0, []⟩).numVars, ((vp.flattened.map heap).getD i ⟨0, []⟩).evals))) pt
        = termsVal heap terms pt := by
    intro pt hpt
    have h1 : (vp.products.map fun p => (p.1, p.2.map fun i =>
        (((vp.flattened.map heap).getD i ⟨0, []⟩).numVars, ((vp.flattened.map heap).getD i ⟨0, []⟩).evals)))
        = (terms.map fun t => (t.1, t.2.map fun a => ((heap a).numVars, (heap a).evals))) := by
      rw [← hi.terms]
      apply List.map_congr_left
      intro p hp
      congr 1
      apply List.map_congr_left
      intro i hi'
      have := hget p hp i hi'
      rw [List.getD_eq_getElem?_getD, this]; rfl
    rw [h1]
    unfold sumOfProducts termsVal
    rw [List.map_map]
    congr 1
    apply List.map_congr_left
    intro t _
    simp only [Function.comp_apply, List.map_map]
    congr 2
    apply List.map_congr_left
    intro a _
    simp only [Function.comp_apply, (htab a).1]
    rw [List.take_of_length_le (by omega)]
  have hunf : proveTerms threads T heap n terms ts
      = (prove threads (.parallel threads) T vp.maxDegree n vp.products (vp.flattened.map heap) ts).bind fun x =>
          (finalEvaluations x.2.1).bind fun evals => some (x.1, evals, x.2.2) := by
    unfold proveTerms
    simp only [Option.bind_eq_bind]
    rw [hvp, ← hnv]
    rfl
  obtain ⟨p0, hp0⟩ := List.exists_mem_of_ne_nil _ hpne
  have hD : 1 ≤ vp.maxDegree :=
    le_trans (List.length_pos_iff.mpr (hlen' p0 hp0).1) (hi.deg p0 hp0)
  rcases Nat.eq_zero_or_pos n with hn | hn
  · subst hn
    refine ⟨⟨[], []⟩, ts, ?_, rfl, ?_⟩
    · rw [hunf]
      have hfin : ∀ l : List ℕ, finalEvaluations (⟨[], 0, vp.maxDegree, 0, vp.products, l.map heap, []⟩ : ProverState F)
          = some (l.map (fun a => mle (heap a).evals [])) := by
        intro l
        unfold finalEvaluations
        simp only
        induction l with
        | nil => rfl
        | cons a l ih =>
          obtain ⟨v, hv⟩ := List.length_eq_one_iff.mp (htab a).2
          rw [List.map_cons, List.mapM_cons, ih]
          simp [hv, mle_nil]
      simp [prove, hfin]
    · intro _
      simp [verify, cubeSum_zero]
  · obtain ⟨proof, st, ts', h1, h2, -, h4, h5⟩ := C10_honest_accepted T threads ht (.parallel threads) ht
      vp.maxDegree n hn hD hchar vp.products hpne (vp.flattened.map heap)
      (by
        intro m hm
        obtain ⟨a, ha, rfl⟩ := List.mem_map.mp hm
        exact ⟨by rw [(htab a).1]; exact (htab a).2, (htab a).1.le⟩)
      (by
        intro _ m hm
        obtain ⟨a, ha, rfl⟩ := List.mem_map.mp hm
        rw [(htab a).1]; exact hn)
      (by
        intro p hp
        exact ⟨(hlen' p hp).1, (hlen' p hp).2, hi.deg p hp, n, fun i hi' => ⟨_, hget p hp i hi', (htab _).1⟩⟩) ts
    refine ⟨proof, ts', ?_, h2, ?_⟩
    · rw [hunf, h1]
      simp only [Option.bind_some, h4, List.map_map]
      congr 3
      apply List.map_congr_left
      intro a _
      simp only [Function.comp_apply, (htab a).1]
      rw [List.take_of_length_le (by omega)]
    · intro hch
      have h : verify T (cubeSum n (sumOfProducts (vp.products.map fun p => (p.1, p.2.map fun i =>
        (((vp.flattened.map heap).getD i ⟨0, []⟩).numVars, ((vp.flattened.map heap).getD i ⟨0, []⟩).evals)))))
          proof vp.maxDegree n ts = some (⟨proof.point, sumOfProducts (vp.products.map fun p => (p.1, p.2.map fun i =>
        (((vp.flattened.map heap).getD i ⟨0, []⟩).numVars, ((vp.flattened.map heap).getD i ⟨0, []⟩).evals)))
          proof.point⟩, ts') := h5 hch
      rw [cubeSum_congr n _ _ hterms, hterms proof.point h2] at h
      exact h

end Lemmas
