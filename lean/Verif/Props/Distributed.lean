import Verif.Props.Sumcheck
import Verif.Lemmas.Schedule
import Verif.Lemmas.Distributed

/-!
C12: the distributed sumcheck prover.
-/

namespace Props
open Spec Model Lemmas

variable {F : Type} [Field F] [DecidableEq F]

/-- C12, concurrency: whatever the threads compute in a round (`next`), if the lock-step run succeeds with
`res = (messages, main state, worker states, last challenge, transcript)`, then every interleaving of the
threads takes at most `n·(4W+3)` steps, never deadlocks before all threads have done their `n` rounds, and
ends with exactly the results of the lock-step run. -/
theorem C12_every_schedule {S : Type} {W : ℕ} (n D : ℕ) (next : S → Option F → Option (List F × S))
    (T : Transcript F) (main : S) (ws : Fin W → S) (ts : T.State)
    (msgs : List (List F)) (main' : S) (ws' : Fin W → S) (ch' : Option F) (ts' : T.State)
    (h : lockstep D next T n main ws none ts = some (msgs, main', ws', ch', ts'))
    (k : ℕ) (c : Cfg S F T.State W) (hs : Steps n D next T (Cfg.init T main ws ts) k c) :
    k ≤ n * (4 * W + 3) ∧
    (¬ c.finished n → ∃ c', Step n D next T c c') ∧
    (c.finished n → c.out = msgs ∧ c.st = main' ∧ (∀ w, (c.ws w).st = ws' w) ∧ c.ch = ch' ∧
      (∀ w, (c.ws w).ch = ch') ∧ c.ts = ts') := by
  obtain ⟨tr, rfl, rfl, h0, rfl, hres⟩ := lockstep_trace D next T n main ws none ts _ h
  simp only [Prod.mk.injEq] at hres
  obtain ⟨rfl, rfl, rfl, rfl, rfl⟩ := hres
  have hinv := inv_steps tr h0 k c hs
  refine ⟨?_, step_exists tr c hinv, inv_finished tr c hinv⟩
  rw [← progress_steps tr h0 k c hs]
  exact progress_le tr c hinv

/-- C12: `2^k` workers, each holding its contiguous slice of `2^n ≥ 2` values of every table, produce the same
proof (point and round messages), the same transcript and the same final evaluations as one prover that
holds the whole tables of `2^(n+k)` values, whichever execution mode the single prover uses. -/
theorem C12_distributed_eq_single (T : Transcript F) (threads : ℕ) (ht : 0 < threads) (ex : Exec)
    (hex : Exec.ok ex) (D n k W : ℕ) (hW : W + 1 = 2 ^ k) (hn : 0 < n) (hD : 1 ≤ D)
    (hchar : ∀ j : ℕ, 0 < j → j ≤ D → (j : F) ≠ 0)
    (products : List (F × List ℕ)) (hprod : products ≠ []) (tables : List (List F))
    (htab : ∀ t ∈ tables, t.length = 2 ^ (n + k))
    (hprods : ∀ p ∈ products, p.2 ≠ [] ∧ p.2.length ≤ 5 ∧ p.2.length ≤ D ∧ ∀ i ∈ p.2, i < tables.length)
    (ts : T.State) :
    let sliceOf : ℕ → List (Mle F) := fun w =>
      tables.map fun t => ⟨n, (t.drop (w * 2 ^ n)).take (2 ^ n)⟩
    ∃ proof st1 st2 ts',
      prove threads ex T D (n + k) products (tables.map fun t => ⟨n + k, t⟩) ts = some (proof, st1, ts') ∧
      proveBatch threads T D n k (fun w : Fin W => (products, sliceOf w)) (products, sliceOf W) ts
        = some (proof, st2, ts') ∧
      finalEvaluations st1 = some (tables.map fun t => mle t proof.point) ∧
      finalEvaluations st2 = some (tables.map fun t => mle t proof.point) := by
  intro sliceOf
  obtain ⟨st1, h1, h1'⟩ := prove_whole ex hex threads ht T D (n + k) (by omega) hD products hprod hchar tables
    htab hprods ts
  obtain ⟨st2, h2, h2'⟩ := proveBatch_whole threads ht T D n k W hW hn hD products hprod hchar tables
    htab hprods ts
  exact ⟨_, st1, st2, _, h1, h2, h1', h2'⟩

/-- C12, both combined: run the real threads on the slices. Every schedule stops within the bound, cannot
get stuck before all rounds are done, and then the main thread holds the first `n` round messages of the
single prover's proof and every thread the same last challenge, entry `n - 1` of the single prover's point. -/
theorem C12_every_schedule_eq_single (T : Transcript F) (threads : ℕ) (ht : 0 < threads) (ex : Exec)
    (hex : Exec.ok ex) (D n k W : ℕ) (hW : W + 1 = 2 ^ k) (hn : 0 < n) (hD : 1 ≤ D)
    (hchar : ∀ j : ℕ, 0 < j → j ≤ D → (j : F) ≠ 0)
    (products : List (F × List ℕ)) (hprod : products ≠ []) (tables : List (List F))
    (htab : ∀ t ∈ tables, t.length = 2 ^ (n + k))
    (hprods : ∀ p ∈ products, p.2 ≠ [] ∧ p.2.length ≤ 5 ∧ p.2.length ≤ D ∧ ∀ i ∈ p.2, i < tables.length)
    (ts : T.State) :
    let sliceOf : ℕ → List (Mle F) := fun w =>
      tables.map fun t => ⟨n, (t.drop (w * 2 ^ n)).take (2 ^ n)⟩
    ∃ aux proof st1 ts', extrapolationAux threads D = some aux ∧
      prove threads ex T D (n + k) products (tables.map fun t => ⟨n + k, t⟩) ts = some (proof, st1, ts') ∧
      ∀ steps c,
        Steps n D (proveRound .serial) T
          (Cfg.init T (⟨[], 0, D, n, products, sliceOf W, aux⟩ : ProverState F)
            (fun w : Fin W => ⟨[], 0, D, n, products, sliceOf w, aux⟩)
            (T.appendUsize (T.appendUsize ts (n + k)) D)) steps c →
        steps ≤ n * (4 * W + 3) ∧
        (¬ c.finished n → ∃ c', Step n D (proveRound .serial) T c c') ∧
        (c.finished n → c.out = proof.proofs.take n ∧ c.ch = proof.point[n - 1]? ∧
          (∀ w, (c.ws w).ch = proof.point[n - 1]?) ∧
          c.st.challenges = proof.point.take (n - 1) ∧
          ∀ w, (c.ws w).st.challenges = proof.point.take (n - 1)) := by
  intro sliceOf
  obtain ⟨aux, haux, hauxs⟩ := aux_get (F := F) threads D ht
  obtain ⟨st1, h1, -⟩ := prove_whole ex hex threads ht T D (n + k) (by omega) hD products hprod hchar tables
    htab hprods ts
  set ts0 := T.appendUsize (T.appendUsize ts (n + k)) D with hts0
  have hgood : ∀ w, w < 2 ^ k → Good D n n products aux [] none (part n w tables)
      ⟨[], 0, D, n, products, part n w tables, aux⟩ := by
    intro w hw
    refine ⟨rfl, rfl, by simp, rfl, rfl, rfl, rfl, rfl, ?_, rfl⟩
    intro m hm
    obtain ⟨u, hu, rfl⟩ := List.mem_map.mp hm
    exact ⟨slice_length n k w hw u (htab u hu), by simp⟩
  obtain ⟨main', ws', ch', g1, g2, g3, g4⟩ := lockstep_honest D n k W hW threads ht T products aux hprod hchar
    hauxs n tables [] none ts0 ⟨[], 0, D, n, products, part n W tables, aux⟩
    (fun w => ⟨[], 0, D, n, products, part n w tables, aux⟩) htab hprods
    (hgood W (by omega)) (fun w => hgood w (by omega))
  refine ⟨aux, _, st1, _, haux, h1, ?_⟩
  intro steps c hs
  obtain ⟨a, b, d⟩ := C12_every_schedule n D (proveRound .serial) T _ _ ts0 _ _ _ _ _ g1 steps c hs
  refine ⟨a, b, fun hf => ?_⟩
  obtain ⟨d1, d2, d3, d4, d5, -⟩ := d hf
  have hsplit := honestLoop_split T D n k (polyVal products (whole (n + k) tables)) ts0
  simp only at hsplit
  set h := honestLoop T D k n (polyVal products (whole (n + k) tables)) ts0 with hh
  have hlen : h.1.length = n ∧ h.2.1.length = n := honestLoop_length T D k n _ ts0
  have key : ∀ s ms, Good D 0 n products aux ([] ++ h.2.1) ch' ms s →
      ch' = h.2.1[n - 1]? ∧ s.challenges = h.2.1.take (n - 1) := by
    intro s ms hg
    obtain ⟨r, rfl⟩ := Option.ne_none_iff_exists'.mp (g2 (by omega))
    have e := hg.hchs
    simp only [Option.toList_some, List.nil_append] at e
    have el : s.challenges.length = n - 1 := by
      have := congrArg List.length e
      rw [List.length_append, hlen.2] at this
      simp at this; omega
    rw [← e]
    simp [← el]
  rw [hsplit]
  simp only
  rw [List.take_append_of_le_length (by omega), List.take_of_length_le (by omega),
    List.getElem?_append_left (by omega), List.take_append_of_le_length (by omega)]
  refine ⟨d1, d4.trans (key _ _ g3).1, fun w => (d5 w).trans (key _ _ g3).1, ?_, fun w => ?_⟩
  · rw [d2]; exact (key _ _ g3).2
  · rw [d3 w]; exact (key _ _ (g4 w)).2

/-- Non-trivial instance of C12: `2·f·g + 3·g` over 8 values, four workers holding two values each. -/
example :
    let P : List (ℚ × List ℕ) := [(2, [0, 1]), (3, [1])]
    let f : List ℚ := [1, 2, 3, 4, 5, 6, 7, 8]
    let g : List ℚ := [2, 0, 5, 1, 1, 9, 4, 3]
    ((proveBatch 2 (tape ℚ) 2 1 2
        (fun w : Fin 3 => (P, [⟨1, (f.drop (w * 2)).take 2⟩, ⟨1, (g.drop (w * 2)).take 2⟩]))
        (P, [⟨1, [7, 8]⟩, ⟨1, [4, 3]⟩]) [7, 11, 13]).bind fun x =>
      (verify (tape ℚ) (2 * (2 + 0 + 15 + 4 + 5 + 54 + 28 + 24) + 3 * 25) x.1 2 3 [7, 11, 13]).map fun y =>
        (y.1.point, x.1.point)) = some ([7, 11, 13], [7, 11, 13]) := by decide +kernel

/-- C12 fails for slices of one value (`n = 0`): with two workers holding one value each the distributed prover
returns a proof without any round message, and the verifier of the one-variable claim rejects it. -/
theorem C12_single_value_slices_false :
    ∃ proof st ts, proveBatch 1 (tape ℚ) 1 0 1 (fun _ : Fin 1 => ([(1, [0])], [⟨0, [3]⟩])) ([(1, [0])], [⟨0, [4]⟩]) [7]
        = some (proof, st, ts) ∧
      verify (tape ℚ) (3 + 4) proof 1 1 [7] = none := by
  refine ⟨_, _, _, rfl, ?_⟩
  decide +kernel

end Props
