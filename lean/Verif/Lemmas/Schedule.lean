import Verif.Model.Distributed
import Mathlib.Data.Fintype.Card
import Mathlib.Data.Fintype.Basic
import Mathlib.Data.Multiset.MapFold
import Mathlib.Algebra.BigOperators.Fin
import Mathlib.Algebra.Order.BigOperators.Group.Finset
import Mathlib.Tactic.Ring

/-!
Every schedule of the concurrent prover computes what the lock-step run computes.
-/

namespace Lemmas
open Model

variable {F : Type} [Field F] [DecidableEq F] {S : Type} {W : ℕ}

omit [DecidableEq F] in
theorem addVec_right_comm (a b c : List F) : addVec (addVec a b) c = addVec (addVec a c) b := by
  unfold addVec
  apply List.ext_getElem
  · simp; omega
  · intro i h1 h2
    simp [add_right_comm]

omit [DecidableEq F] in
theorem foldl_addVec_perm (l l' : List (List F)) (h : l.Perm l') (a : List F) :
    l.foldl addVec a = l'.foldl addVec a :=
  h.foldl_eq' (fun x _ y _ z => addVec_right_comm z x y) a

/-- The lock-step run, round by round. -/
structure Trace (n D : ℕ) (next : S → Option F → Option (List F × S)) (T : Transcript F) (W : ℕ) where
  mst : ℕ → S
  st : ℕ → Fin W → S
  ch : ℕ → Option F
  ts : ℕ → T.State
  mm : ℕ → List F
  msg : ℕ → Fin W → List F
  hm : ∀ r < n, next (mst r) (ch r) = some (mm r, mst (r + 1))
  hw : ∀ r < n, ∀ w, next (st r w) (ch r) = some (msg r w, st (r + 1) w)
  hc : ∀ r < n, ch (r + 1) = some (T.challenge (T.appendExts (ts r)
    ((List.ofFn (msg r)).foldl addVec (addVec (List.replicate (D + 1) 0) (mm r))))).1
  ht : ∀ r < n, ts (r + 1) = (T.challenge (T.appendExts (ts r)
    ((List.ofFn (msg r)).foldl addVec (addVec (List.replicate (D + 1) 0) (mm r))))).2

def Trace.total {n D : ℕ} {next : S → Option F → Option (List F × S)} {T : Transcript F}
    (tr : Trace n D next T W) (r : ℕ) : List F :=
  (List.ofFn (tr.msg r)).foldl addVec (addVec (List.replicate (D + 1) 0) (tr.mm r))

/-- A successful lock-step run has a trace. -/
theorem lockstep_trace (D : ℕ) (next : S → Option F → Option (List F × S)) (T : Transcript F) (n : ℕ) :
    ∀ (main : S) (ws : Fin W → S) (ch : Option F) (ts : T.State)
      (res : List (List F) × S × (Fin W → S) × Option F × T.State),
      lockstep D next T n main ws ch ts = some res →
      ∃ tr : Trace n D next T W, tr.mst 0 = main ∧ tr.st 0 = ws ∧ tr.ch 0 = ch ∧ tr.ts 0 = ts ∧
        res = ((List.range n).map tr.total, tr.mst n, tr.st n, tr.ch n, tr.ts n) := by
  induction n with
  | zero =>
    intro main ws ch ts res h
    simp only [lockstep, Option.some.injEq] at h
    subst h
    exact ⟨⟨fun _ => main, fun _ => ws, fun _ => ch, fun _ => ts, fun _ => [], fun _ _ => [],
      by simp, by simp, by simp, by simp⟩, rfl, rfl, rfl, rfl, rfl⟩
  | succ n ih =>
    intro main ws ch ts res h
    rw [lockstep] at h
    cases hmm : next main ch with
    | none => rw [hmm] at h; simp at h
    | some mm =>
      rw [hmm] at h
      simp only at h
      split at h
      · rename_i hs
        split at h
        · simp at h
        · rename_i msgs main' ws' ch' ts' hrec
          obtain ⟨tr, h1, h2, h3, h4, h5⟩ := ih _ _ _ _ _ hrec
          simp only [Option.some.injEq] at h
          subst h
          refine ⟨⟨fun r => Nat.casesOn r main tr.mst, fun r => Nat.casesOn r ws tr.st,
            fun r => Nat.casesOn r ch tr.ch, fun r => Nat.casesOn r ts tr.ts,
            fun r => Nat.casesOn r mm.1 tr.mm,
            fun r => Nat.casesOn r (fun w => ((next (ws w) ch).get (hs w)).1) tr.msg, ?_, ?_, ?_, ?_⟩,
            rfl, rfl, rfl, rfl, ?_⟩
          · intro r hr
            cases r with
            | zero => show next main ch = some (mm.1, tr.mst 0); rw [h1, hmm]
            | succ r => exact tr.hm r (by omega)
          · intro r hr w
            cases r with
            | zero =>
              show next (ws w) ch = some (((next (ws w) ch).get (hs w)).1, tr.st 0 w)
              rw [h2, Prod.mk.eta, Option.some_get]
            | succ r => exact tr.hw r (by omega) w
          · intro r hr
            cases r with
            | zero => exact h3
            | succ r => exact tr.hc r (by omega)
          · intro r hr
            cases r with
            | zero => exact h4
            | succ r => exact tr.ht r (by omega)
          · simp only [Prod.mk.injEq] at h5
            obtain ⟨e1, e2, e3, e4, e5⟩ := h5
            simp only [Prod.mk.injEq]
            refine ⟨?_, e2, e3, e4, e5⟩
            rw [List.range_succ_eq_map, List.map_cons, List.map_map, e1]
            rfl
      · simp at h

variable {n D : ℕ} {next : S → Option F → Option (List F × S)} {T : Transcript F}

theorem rolling_ne (r : ℕ) : rolling (r + 1) ≠ rolling r := by unfold rolling; omega
theorem rolling_ne' (r : ℕ) : rolling r ≠ rolling (r + 1) := by unfold rolling; omega
theorem rolling_two (r : ℕ) : rolling (r + 1 + 1) = rolling r := by unfold rolling; omega

/-- Invariant of the workers. -/
def WInv (tr : Trace n D next T W) (c : Cfg S F T.State W) : Prop :=
  ∀ w, (c.ws w).round ≤ n ∧
    ((c.ws w).waiting = true → (c.ws w).round < n ∧ (c.ws w).st = tr.st ((c.ws w).round + 1) w) ∧
    ((c.ws w).waiting = false →
      (c.ws w).st = tr.st (c.ws w).round w ∧ (c.ws w).ch = tr.ch (c.ws w).round)

/-- While the main thread computes or collects in its round. -/
structure InvA (tr : Trace n D next T W) (c : Cfg S F T.State W) (consumed : List (List F)) : Prop where
  ts : c.ts = tr.ts c.round
  pos : ∀ w, (c.ws w).round = c.round ∨ ((c.ws w).round + 1 = c.round ∧ (c.ws w).waiting = true)
  cq0 : c.cq (rolling c.round) = []
  cq1 : (c.cq (rolling (c.round + 1))).length
    = (Finset.univ.filter fun w => (c.ws w).round + 1 = c.round).card
  cq1v : ∀ x ∈ c.cq (rolling (c.round + 1)), tr.ch c.round = some x
  ef1 : c.ef (rolling (c.round + 1)) = []
  ef0 : ((consumed ++ c.ef (rolling c.round) : List (List F)) : Multiset (List F))
    = (Finset.univ.filter fun w => (c.ws w).round = c.round ∧ (c.ws w).waiting = true).val.map
        (tr.msg c.round)

/-- While the main thread sends the challenge of its round. -/
structure InvB (tr : Trace n D next T W) (c : Cfg S F T.State W) (acc : List F) (x : F) (l : ℕ) : Prop where
  rn : c.round < n
  st : c.st = tr.mst (c.round + 1)
  acc : acc = tr.total c.round
  ch : tr.ch (c.round + 1) = some x
  ts : c.ts = tr.ts (c.round + 1)
  pos : ∀ w, ((c.ws w).round = c.round ∧ (c.ws w).waiting = true) ∨ (c.ws w).round = c.round + 1
  ef0 : c.ef (rolling c.round) = []
  cq1 : c.cq (rolling (c.round + 1)) = []
  cq0v : ∀ y ∈ c.cq (rolling c.round), y = x
  cq0 : (c.cq (rolling c.round)).length
    + (Finset.univ.filter fun w => (c.ws w).round = c.round + 1).card + l = W
  ef1 : ((c.ef (rolling (c.round + 1)) : List (List F)) : Multiset (List F))
    = (Finset.univ.filter fun w => (c.ws w).round = c.round + 1 ∧ (c.ws w).waiting = true).val.map
        (tr.msg (c.round + 1))

def PhaseInv (tr : Trace n D next T W) (c : Cfg S F T.State W) : Prop :=
  match c.phase with
  | .compute => c.st = tr.mst c.round ∧ InvA tr c []
  | .collect acc l => c.round < n ∧ c.st = tr.mst (c.round + 1) ∧ ∃ consumed, InvA tr c consumed ∧
      acc = consumed.foldl addVec (addVec (List.replicate (D + 1) 0) (tr.mm c.round)) ∧
      l + consumed.length = W
  | .send acc x l => InvB tr c acc x l

structure Inv (tr : Trace n D next T W) (c : Cfg S F T.State W) : Prop where
  w : WInv tr c
  rn : c.round ≤ n
  out : c.out = (List.range c.round).map tr.total
  ch : c.ch = tr.ch c.round
  phase : PhaseInv tr c

theorem inv_init (tr : Trace n D next T W) (h0 : tr.ch 0 = none) :
    Inv tr (Cfg.init T (tr.mst 0) (tr.st 0) (tr.ts 0)) := by
  refine ⟨fun w => ⟨Nat.zero_le _, by simp [Cfg.init], fun _ => ⟨rfl, h0.symm⟩⟩, Nat.zero_le _, rfl, h0.symm, ?_⟩
  refine ⟨rfl, rfl, fun w => Or.inl rfl, rfl, ?_, ?_, rfl, ?_⟩ <;> simp [Cfg.init]

/-- Filter after changing one worker, when the predicate now holds at that worker and did not before. -/
theorem filter_update_insert {α : Type} (f : Fin W → α) (w : Fin W) (v : α) (p q : α → Prop)
    [DecidablePred p] [DecidablePred q] (hpq : ∀ u, u ≠ w → (p (f u) ↔ q (f u))) (hv : p v) :
    (Finset.univ.filter fun u => p (Function.update f w v u))
      = insert w (Finset.univ.filter fun u => q (f u)) := by
  ext u
  simp only [Finset.mem_filter, Finset.mem_univ, true_and, Finset.mem_insert]
  by_cases h : u = w
  · subst h; simp [hv]
  · simp [h, hpq u h]

theorem filter_update_erase {α : Type} (f : Fin W → α) (w : Fin W) (v : α) (p : α → Prop)
    [DecidablePred p] (hv : ¬ p v) :
    (Finset.univ.filter fun u => p (Function.update f w v u))
      = (Finset.univ.filter fun u => p (f u)).erase w := by
  ext u
  simp only [Finset.mem_filter, Finset.mem_univ, true_and, Finset.mem_erase]
  by_cases h : u = w
  · subst h; simp [hv]
  · simp [h]

theorem filter_update_same {α : Type} (f : Fin W → α) (w : Fin W) (v : α) (p : α → Prop)
    [DecidablePred p] (hv : p v ↔ p (f w)) :
    (Finset.univ.filter fun u => p (Function.update f w v u))
      = (Finset.univ.filter fun u => p (f u)) := by
  ext u
  simp only [Finset.mem_filter, Finset.mem_univ, true_and]
  by_cases h : u = w
  · subst h; simp [hv]
  · simp [h]

theorem winv_update (tr : Trace n D next T W) (c : Cfg S F T.State W) (h : WInv tr c) (w : Fin W)
    (v : WorkerSt S F)
    (hv : v.round ≤ n ∧ (v.waiting = true → v.round < n ∧ v.st = tr.st (v.round + 1) w) ∧
      (v.waiting = false → v.st = tr.st v.round w ∧ v.ch = tr.ch v.round)) (ef cq) :
    WInv tr { c with ws := Function.update c.ws w v, ef := ef, cq := cq } := by
  intro u
  by_cases hu : u = w
  · subst hu; simpa using hv
  · simpa [hu] using h u

theorem inv_step (tr : Trace n D next T W) (c c' : Cfg S F T.State W) (h : Inv tr c)
    (hs : Step n D next T c c') : Inv tr c' := by
  obtain ⟨hw, hrn, hout, hch, hph⟩ := h
  cases hs with
  | mainCompute m s' hr hp hn =>
    unfold PhaseInv at hph
    rw [hp] at hph
    obtain ⟨hst, hA⟩ := hph
    have := tr.hm c.round hr
    rw [← hst, ← hch, hn] at this
    simp only [Option.some.injEq, Prod.mk.injEq] at this
    refine ⟨hw, hrn, hout, hch, ?_⟩
    exact ⟨hr, this.2, [], ⟨hA.ts, hA.pos, hA.cq0, hA.cq1, hA.cq1v, hA.ef1, hA.ef0⟩, by rw [this.1]; rfl, rfl⟩
  | mainRecv acc l msg rest hp hq =>
    unfold PhaseInv at hph
    rw [hp] at hph
    obtain ⟨hr, hst, consumed, hA, hacc, hl⟩ := hph
    refine ⟨hw, hrn, hout, hch, ?_⟩
    refine ⟨hr, hst, consumed ++ [msg], ⟨hA.ts, hA.pos, hA.cq0, hA.cq1, hA.cq1v, ?_, ?_⟩, ?_, ?_⟩
    · simp only
      rw [Function.update_of_ne (rolling_ne _)]; exact hA.ef1
    · have := hA.ef0
      rw [hq] at this
      simp only [Function.update_self, List.append_assoc, List.singleton_append]
      exact this
    · rw [List.foldl_append, ← hacc]; rfl
    · simp; omega
  | mainChallenge acc hp =>
    unfold PhaseInv at hph
    rw [hp] at hph
    obtain ⟨hr, hst, consumed, hA, hacc, hl⟩ := hph
    have hcard := congrArg Multiset.card hA.ef0
    simp only [Multiset.coe_card, List.length_append, Multiset.card_map, Finset.card_val] at hcard
    have hle : (Finset.univ.filter fun w => (c.ws w).round = c.round ∧ (c.ws w).waiting = true).card ≤ W := by
      simpa using Finset.card_filter_le (Finset.univ : Finset (Fin W)) _
    have hef : c.ef (rolling c.round) = [] := by
      apply List.length_eq_zero_iff.mp; omega
    have hall : ∀ w, (c.ws w).round = c.round ∧ (c.ws w).waiting = true := by
      have : (Finset.univ.filter fun w => (c.ws w).round = c.round ∧ (c.ws w).waiting = true)
          = Finset.univ := by
        apply Finset.eq_univ_of_card
        simp; omega
      intro w
      have hm : w ∈ (Finset.univ.filter fun w => (c.ws w).round = c.round ∧ (c.ws w).waiting = true) := by
        rw [this]; exact Finset.mem_univ w
      simpa using hm
    have hperm : consumed.Perm (List.ofFn (tr.msg c.round)) := by
      rw [← Multiset.coe_eq_coe]
      have e := hA.ef0
      rw [hef, List.append_nil] at e
      rw [e]
      have : (Finset.univ.filter fun w => (c.ws w).round = c.round ∧ (c.ws w).waiting = true)
          = Finset.univ := by
        ext w; simp [hall w]
      rw [this, Fin.univ_val_map]
    have htot : acc = tr.total c.round := by
      rw [hacc, foldl_addVec_perm _ _ hperm]; rfl
    refine ⟨hw, hrn, hout, hch, ?_⟩
    have hc := tr.hc c.round hr
    have ht := tr.ht c.round hr
    have e : (T.appendExts c.ts acc) = T.appendExts (tr.ts c.round)
      ((List.ofFn (tr.msg c.round)).foldl addVec (addVec (List.replicate (D + 1) 0) (tr.mm c.round))) := by
      rw [htot, hA.ts]; rfl
    refine ⟨hr, hst, htot, by rw [hc, ← e], by rw [ht, ← e], fun w => Or.inl (hall w), hef, ?_, ?_, ?_, ?_⟩
    · have := hA.cq1
      have h0 : (Finset.univ.filter fun w => (c.ws w).round + 1 = c.round) = ∅ := by
        ext w; simp [hall w]
      rw [h0] at this
      exact List.length_eq_zero_iff.mp (by simpa using this)
    · simp only; rw [hA.cq0]; simp
    · simp only; rw [hA.cq0]
      have h0 : (Finset.univ.filter fun w => (c.ws w).round = c.round + 1) = ∅ := by
        ext w; simp [hall w]
      rw [h0]; simp
    · simp only; rw [hA.ef1]
      have h0 : (Finset.univ.filter fun w => (c.ws w).round = c.round + 1 ∧ (c.ws w).waiting = true) = ∅ := by
        ext w; simp [hall w]
      rw [h0]; simp
  | mainSend acc x l hp hq =>
    unfold PhaseInv at hph
    rw [hp] at hph
    refine ⟨hw, hrn, hout, hch, ?_⟩
    refine ⟨hph.rn, hph.st, hph.acc, hph.ch, hph.ts, hph.pos, hph.ef0, ?_, ?_, ?_, hph.ef1⟩
    · simp only; rw [Function.update_of_ne (rolling_ne _)]; exact hph.cq1
    · simp only [Function.update_self]
      intro y hy
      rcases List.mem_append.mp hy with h | h
      · exact hph.cq0v y h
      · simpa using h
    · simp only [Function.update_self, List.length_append, List.length_singleton]
      have := hph.cq0
      omega
  | mainNext acc x hp =>
    unfold PhaseInv at hph
    rw [hp] at hph
    refine ⟨hw, hph.rn, ?_, hph.ch.symm, ?_⟩
    · simp only
      rw [hout, hph.acc, List.range_succ, List.map_append]; rfl
    · refine ⟨hph.st, hph.ts, ?_, hph.cq1, ?_, ?_, ?_, ?_⟩
      · intro w
        rcases hph.pos w with ⟨h1, h2⟩ | h
        · right; exact ⟨by simp only; omega, h2⟩
        · left; exact h
      · simp only; rw [rolling_two]
        have hc := hph.cq0
        have hsplit : (Finset.univ.filter fun w => (c.ws w).round + 1 = c.round + 1).card
            + (Finset.univ.filter fun w => (c.ws w).round = c.round + 1).card = W := by
          rw [← Finset.card_union_of_disjoint]
          · have : (Finset.univ.filter fun w => (c.ws w).round + 1 = c.round + 1)
                ∪ (Finset.univ.filter fun w => (c.ws w).round = c.round + 1) = Finset.univ := by
              ext w
              simp only [Finset.mem_union, Finset.mem_filter, Finset.mem_univ, true_and, iff_true]
              rcases hph.pos w with ⟨h1, _⟩ | h
              · left; omega
              · right; exact h
            rw [this]; simp
          · rw [Finset.disjoint_filter]
            intro w _ h1 h2; omega
        omega
      · simp only; rw [rolling_two]
        intro y hy
        rw [hph.cq0v y hy]; exact hph.ch
      · simp only; rw [rolling_two]; exact hph.ef0
      · simpa using hph.ef1
  | workerSend w m s' hr hwait hn hq =>
    obtain ⟨_, _, hw3⟩ := hw w
    obtain ⟨hst, hwch⟩ := hw3 hwait
    have hnext := tr.hw _ hr w
    rw [← hst, ← hwch, hn] at hnext
    simp only [Option.some.injEq, Prod.mk.injEq] at hnext
    obtain ⟨hm, hs'⟩ := hnext
    refine ⟨?_, hrn, hout, hch, ?_⟩
    · exact winv_update tr c hw w { c.ws w with waiting := true, st := s' } ⟨hr.le, fun _ => ⟨hr, hs'⟩, by simp⟩ _ _
    · have hAcase : ∀ consumed, InvA tr c consumed → InvA tr { c with
          ws := Function.update c.ws w { c.ws w with waiting := true, st := s' }
          ef := Function.update c.ef (rolling (c.ws w).round) (c.ef (rolling (c.ws w).round) ++ [m]) }
          consumed := by
        intro consumed hA
        have hwr : (c.ws w).round = c.round := by
          rcases hA.pos w with h | ⟨_, h⟩
          · exact h
          · rw [hwait] at h; simp at h
        rw [hwr] at hm
        refine ⟨hA.ts, ?_, hA.cq0, ?_, hA.cq1v, ?_, ?_⟩
        · intro u
          by_cases hu : u = w
          · subst hu; left; simpa using hwr
          · simpa [hu] using hA.pos u
        · simp only
          rw [hA.cq1, filter_update_same c.ws w { c.ws w with waiting := true, st := s' } (fun v => v.round + 1 = c.round) Iff.rfl]
        · simp only; rw [hwr, Function.update_of_ne (rolling_ne _)]; exact hA.ef1
        · simp only
          rw [show rolling (c.ws w).round = rolling c.round by rw [hwr], Function.update_self, ← List.append_assoc,
            filter_update_insert c.ws w { c.ws w with waiting := true, st := s' } (fun v => v.round = c.round ∧ v.waiting = true)
              (fun v => v.round = c.round ∧ v.waiting = true) (fun u _ => Iff.rfl) ⟨hwr, rfl⟩,
            Finset.insert_val_of_notMem (by simp [hwait]), Multiset.map_cons, ← hA.ef0, ← hm,
            ← Multiset.coe_add, Multiset.coe_singleton, add_comm, Multiset.singleton_add]
      unfold PhaseInv at hph ⊢
      simp only
      split at hph
      · rename_i hp
        exact ⟨hph.1, hAcase _ hph.2⟩
      · rename_i acc l hp
        obtain ⟨h1, h2, consumed, hA, h3, h4⟩ := hph
        exact ⟨h1, h2, consumed, hAcase _ hA, h3, h4⟩
      · rename_i acc x l hp
        have hwr : (c.ws w).round = c.round + 1 := by
          rcases hph.pos w with ⟨_, h⟩ | h
          · rw [hwait] at h; simp at h
          · exact h
        rw [hwr] at hm
        refine ⟨hph.rn, hph.st, hph.acc, hph.ch, hph.ts, ?_, ?_, hph.cq1, hph.cq0v, ?_, ?_⟩
        · intro u
          by_cases hu : u = w
          · subst hu; right; simpa using hwr
          · simpa [hu] using hph.pos u
        · simp only; rw [hwr, Function.update_of_ne (rolling_ne' _)]; exact hph.ef0
        · simp only
          rw [filter_update_same c.ws w { c.ws w with waiting := true, st := s' } (fun v => v.round = c.round + 1) Iff.rfl]; exact hph.cq0
        · simp only
          rw [show rolling (c.ws w).round = rolling (c.round + 1) by rw [hwr], Function.update_self,
            filter_update_insert c.ws w { c.ws w with waiting := true, st := s' } (fun v => v.round = c.round + 1 ∧ v.waiting = true)
              (fun v => v.round = c.round + 1 ∧ v.waiting = true) (fun u _ => Iff.rfl) ⟨hwr, rfl⟩,
            Finset.insert_val_of_notMem (by simp [hwait]), Multiset.map_cons, ← hph.ef1, ← hm,
            ← Multiset.coe_add, Multiset.coe_singleton, add_comm, Multiset.singleton_add]
  | workerRecv w x rest hwait hq =>
    obtain ⟨_, hw2, _⟩ := hw w
    obtain ⟨hlt, hst⟩ := hw2 hwait
    have hAcase : ∀ consumed, InvA tr c consumed →
        ((c.ws w).round + 1 = c.round ∧ tr.ch c.round = some x) ∧ InvA tr { c with
          ws := Function.update c.ws w
            { c.ws w with waiting := false, ch := some x, round := (c.ws w).round + 1 }
          cq := Function.update c.cq (rolling (c.ws w).round) rest } consumed := by
      intro consumed hA
      have hwr : (c.ws w).round + 1 = c.round := by
        rcases hA.pos w with h | ⟨h, _⟩
        · rw [h, hA.cq0] at hq; simp at hq
        · exact h
      have hroll : rolling (c.ws w).round = rolling (c.round + 1) := by
        rw [← hwr, rolling_two]
      rw [hroll] at hq
      refine ⟨⟨hwr, hA.cq1v x (by rw [hq]; simp)⟩, hA.ts, ?_, ?_, ?_, ?_, hA.ef1, ?_⟩
      · intro u
        by_cases hu : u = w
        · subst hu; left; simpa using hwr
        · simpa [hu] using hA.pos u
      · simp only; rw [hroll, Function.update_of_ne (rolling_ne' _)]; exact hA.cq0
      · simp only
        have := hA.cq1
        rw [hq, List.length_cons] at this
        rw [hroll, Function.update_self,
          filter_update_erase c.ws w _ (fun v => v.round + 1 = c.round) (by simp only; omega),
          Finset.card_erase_of_mem (by simp [hwr])]
        omega
      · simp only
        rw [hroll, Function.update_self]
        intro y hy
        exact hA.cq1v y (by rw [hq]; simp [hy])
      · simp only
        rw [hA.ef0, filter_update_same c.ws w _ (fun v => v.round = c.round ∧ v.waiting = true) (by
          simp only [Bool.false_eq_true, and_false, false_iff, not_and]
          intro h; omega)]
    have hWv : tr.ch ((c.ws w).round + 1) = some x →
        WInv tr { c with
          ws := Function.update c.ws w
            { c.ws w with waiting := false, ch := some x, round := (c.ws w).round + 1 }
          cq := Function.update c.cq (rolling (c.ws w).round) rest } := by
      intro h
      exact winv_update tr c hw w { c.ws w with waiting := false, ch := some x, round := (c.ws w).round + 1 }
        ⟨hlt, by simp, fun _ => ⟨hst, h.symm⟩⟩ _ _
    unfold PhaseInv at hph
    split at hph
    · rename_i hp
      obtain ⟨⟨h1, h2⟩, h3⟩ := hAcase _ hph.2
      refine ⟨hWv (by rw [h1]; exact h2), hrn, hout, hch, ?_⟩
      unfold PhaseInv; simp only [hp]
      exact ⟨hph.1, h3.ts, h3.pos, h3.cq0, h3.cq1, h3.cq1v, h3.ef1, h3.ef0⟩
    · rename_i acc l hp
      obtain ⟨h1, h2, consumed, hA, h3, h4⟩ := hph
      obtain ⟨⟨h5, h6⟩, h7⟩ := hAcase _ hA
      refine ⟨hWv (by rw [h5]; exact h6), hrn, hout, hch, ?_⟩
      unfold PhaseInv; simp only [hp]
      exact ⟨h1, h2, consumed, ⟨h7.ts, h7.pos, h7.cq0, h7.cq1, h7.cq1v, h7.ef1, h7.ef0⟩, h3, h4⟩
    · rename_i acc y l hp
      have hwr : (c.ws w).round = c.round := by
        rcases hph.pos w with ⟨h, _⟩ | h
        · exact h
        · rw [h, hph.cq1] at hq; simp at hq
      rw [hwr] at hq
      have hx : x = y := hph.cq0v x (by rw [hq]; simp)
      refine ⟨hWv (by rw [hwr, hx]; exact hph.ch), hrn, hout, hch, ?_⟩
      unfold PhaseInv; simp only [hp]
      refine ⟨hph.rn, hph.st, hph.acc, hph.ch, hph.ts, ?_, hph.ef0, ?_, ?_, ?_, ?_⟩
      · intro u
        by_cases hu : u = w
        · subst hu; right; simpa using hwr
        · simpa [hu] using hph.pos u
      · simp only; rw [hwr, Function.update_of_ne (rolling_ne _)]; exact hph.cq1
      · simp only
        rw [hwr, Function.update_self]
        intro z hz
        exact hph.cq0v z (by rw [hq]; simp [hz])
      · simp only
        have hc0 := hph.cq0
        rw [hq, List.length_cons] at hc0
        rw [hwr, Function.update_self,
          filter_update_insert c.ws w _ (fun v => v.round = c.round + 1)
            (fun v => v.round = c.round + 1) (fun u _ => Iff.rfl) (by simp [hwr]),
          Finset.card_insert_of_notMem (by simp [hwr])]
        omega
      · simp only
        rw [hph.ef1, filter_update_same c.ws w _ (fun v => v.round = c.round + 1 ∧ v.waiting = true) (by
          simp [hwr])]

theorem inv_steps (tr : Trace n D next T W) (h0 : tr.ch 0 = none) (k : ℕ) (c : Cfg S F T.State W)
    (h : Steps n D next T (Cfg.init T (tr.mst 0) (tr.st 0) (tr.ts 0)) k c) : Inv tr c := by
  induction h with
  | refl => exact inv_init tr h0
  | tail _ h' ih => exact inv_step tr _ _ ih h'

/-- Number of steps taken, read off the configuration. -/
def progress (c : Cfg S F T.State W) : ℕ :=
  c.round * (2 * W + 3) + (match c.phase with
    | .compute => 0
    | .collect _ l => 1 + (W - l)
    | .send _ _ l => 2 + W + (W - l)) + ∑ w, (2 * (c.ws w).round + if (c.ws w).waiting then 1 else 0)

theorem sum_update {α : Type} (f : Fin W → α) (w : Fin W) (v : α) (g : α → ℕ) (h : g v = g (f w) + 1) :
    ∑ u, g (Function.update f w v u) = ∑ u, g (f u) + 1 := by
  rw [← Finset.add_sum_erase _ _ (Finset.mem_univ w), ← Finset.add_sum_erase _ (fun u => g (f u)) (Finset.mem_univ w)]
  rw [Function.update_self, h]
  have : ∑ u ∈ Finset.univ.erase w, g (Function.update f w v u) = ∑ u ∈ Finset.univ.erase w, g (f u) := by
    apply Finset.sum_congr rfl
    intro u hu
    rw [Function.update_of_ne (Finset.ne_of_mem_erase hu)]
  rw [this]; omega

theorem progress_step (tr : Trace n D next T W) (c c' : Cfg S F T.State W) (h : Inv tr c)
    (hs : Step n D next T c c') : progress c' = progress c + 1 := by
  have hph := h.phase
  unfold PhaseInv at hph
  cases hs with
  | mainCompute m s' hr hp hn => unfold progress; simp only [hp]; omega
  | mainRecv acc l msg rest hp hq =>
    rw [hp] at hph
    obtain ⟨_, _, cons, _, _, hl⟩ := hph
    unfold progress; simp only [hp]; omega
  | mainChallenge acc hp => unfold progress; simp only [hp]; omega
  | mainSend acc x l hp hq =>
    rw [hp] at hph
    have := hph.cq0
    unfold progress; simp only [hp]; omega
  | mainNext acc x hp => unfold progress; simp only [hp]; ring_nf; omega
  | workerSend w m s' hr hw hn hq =>
    unfold progress; simp only
    rw [sum_update c.ws w _ (fun v => 2 * v.round + if v.waiting then 1 else 0) (by simp [hw])]
    omega
  | workerRecv w x rest hw hq =>
    unfold progress; simp only
    rw [sum_update c.ws w _ (fun v => 2 * v.round + if v.waiting then 1 else 0) (by simp [hw]; omega)]
    omega

theorem progress_steps (tr : Trace n D next T W) (h0 : tr.ch 0 = none) (k : ℕ) (c : Cfg S F T.State W)
    (h : Steps n D next T (Cfg.init T (tr.mst 0) (tr.st 0) (tr.ts 0)) k c) : progress c = k := by
  induction h with
  | refl => simp [progress, Cfg.init]
  | tail h h' ih => rw [progress_step tr _ _ (inv_steps tr h0 _ _ h) h', ih]

/-- No deadlock: an unfinished configuration has an enabled step. -/
theorem step_exists (tr : Trace n D next T W) (c : Cfg S F T.State W) (h : Inv tr c)
    (hf : ¬ c.finished n) : ∃ c', Step n D next T c c' := by
  obtain ⟨hw, hrn, hout, hch, hph⟩ := h
  have hAcase : ∀ consumed, InvA tr c consumed → ∀ w, ¬ ((c.ws w).round = c.round ∧ (c.ws w).waiting = true) →
      ((c.ws w).round < n) → ∃ c', Step n D next T c c' := by
    intro consumed hA w hB hlt
    by_cases hwr : (c.ws w).round = c.round
    · have hwait : (c.ws w).waiting = false := by
        cases hb : (c.ws w).waiting with
        | false => rfl
        | true => exact absurd ⟨hwr, hb⟩ hB
      obtain ⟨hst, hwch⟩ := (hw w).2.2 hwait
      refine ⟨_, Step.workerSend c w _ _ hlt hwait (by rw [hst, hwch]; exact tr.hw _ hlt w) ?_⟩
      have hcard := congrArg Multiset.card hA.ef0
      simp only [Multiset.coe_card, List.length_append, Multiset.card_map, Finset.card_val] at hcard
      have hle : (Finset.univ.filter fun w => (c.ws w).round = c.round ∧ (c.ws w).waiting = true).card ≤ W := by
        simpa using Finset.card_filter_le (Finset.univ : Finset (Fin W)) _
      rw [hwr]; unfold chanCap; omega
    · rcases hA.pos w with h | ⟨h1, h2⟩
      · exact absurd h hwr
      · have hpos : 0 < (c.cq (rolling (c.round + 1))).length := by
          rw [hA.cq1]
          exact Finset.card_pos.mpr ⟨w, by simp [h1]⟩
        obtain ⟨x, rest, hq⟩ := List.exists_cons_of_length_pos hpos
        have hroll : rolling (c.ws w).round = rolling (c.round + 1) := by rw [← h1, rolling_two]
        exact ⟨_, Step.workerRecv c w x rest h2 (by rw [hroll]; exact hq)⟩
  unfold PhaseInv at hph
  split at hph
  · rename_i hp
    obtain ⟨hst, hA⟩ := hph
    by_cases hr : c.round < n
    · exact ⟨_, Step.mainCompute c _ _ hr hp (by rw [hst, hch]; exact tr.hm _ hr)⟩
    · have hr' : c.round = n := by omega
      have : ∃ w, (c.ws w).round ≠ n := by
        by_contra hcon
        push Not at hcon
        exact hf ⟨hr', hcon⟩
      obtain ⟨w, hwn⟩ := this
      have hlt : (c.ws w).round < n := lt_of_le_of_ne (hw w).1 hwn
      exact hAcase _ hA w (by rintro ⟨h, _⟩; omega) hlt
  · rename_i acc l hp
    obtain ⟨hr, hst, consumed, hA, hacc, hl⟩ := hph
    cases l with
    | zero => exact ⟨_, Step.mainChallenge c acc hp⟩
    | succ l =>
      cases hq : c.ef (rolling c.round) with
      | cons msg rest => exact ⟨_, Step.mainRecv c acc l msg rest hp hq⟩
      | nil =>
        have hcard := congrArg Multiset.card hA.ef0
        simp only [Multiset.coe_card, List.length_append, Multiset.card_map, Finset.card_val, hq,
          List.length_nil] at hcard
        have : ∃ w, ¬ ((c.ws w).round = c.round ∧ (c.ws w).waiting = true) := by
          by_contra hcon
          push Not at hcon
          have : (Finset.univ.filter fun w => (c.ws w).round = c.round ∧ (c.ws w).waiting = true)
              = Finset.univ := by ext w; simp [hcon w]
          rw [this] at hcard
          simp at hcard; omega
        obtain ⟨w, hB⟩ := this
        refine hAcase _ hA w hB ?_
        rcases hA.pos w with h | ⟨h, _⟩ <;> omega
  · rename_i acc x l hp
    cases l with
    | zero => exact ⟨_, Step.mainNext c acc x hp⟩
    | succ l =>
      refine ⟨_, Step.mainSend c acc x l hp ?_⟩
      have := hph.cq0
      unfold chanCap; omega

theorem inv_finished (tr : Trace n D next T W) (c : Cfg S F T.State W) (h : Inv tr c) (hf : c.finished n) :
    c.out = (List.range n).map tr.total ∧ c.st = tr.mst n ∧ (∀ w, (c.ws w).st = tr.st n w) ∧
      c.ch = tr.ch n ∧ (∀ w, (c.ws w).ch = tr.ch n) ∧ c.ts = tr.ts n := by
  obtain ⟨hr, hws⟩ := hf
  have hph := h.phase
  unfold PhaseInv at hph
  have hwait : ∀ w, (c.ws w).waiting = false := by
    intro w
    cases hb : (c.ws w).waiting with
    | false => rfl
    | true => have := ((h.w w).2.1 hb).1; have := hws w; omega
  have h1 : ∀ w, (c.ws w).st = tr.st n w ∧ (c.ws w).ch = tr.ch n := by
    intro w
    have := (h.w w).2.2 (hwait w)
    rwa [hws w] at this
  split at hph
  · refine ⟨by rw [h.out, hr], by rw [hph.1, hr], fun w => (h1 w).1, by rw [h.ch, hr], fun w => (h1 w).2, ?_⟩
    rw [hph.2.ts, hr]
  · have := hph.1; omega
  · have := hph.rn; omega

theorem progress_le (tr : Trace n D next T W) (c : Cfg S F T.State W) (h : Inv tr c) :
    progress c ≤ n * (4 * W + 3) := by
  have hws : ∑ w, (2 * (c.ws w).round + if (c.ws w).waiting then 1 else 0) ≤ W * (2 * n) := by
    calc _ ≤ ∑ _w : Fin W, 2 * n := by
            apply Finset.sum_le_sum
            intro w _
            split
            · rename_i hb
              have := ((h.w w).2.1 hb).1; omega
            · have := (h.w w).1; omega
      _ = W * (2 * n) := by simp
  have hph := h.phase
  unfold PhaseInv at hph
  have hmain : c.round * (2 * W + 3) + (match c.phase with
    | .compute => 0
    | .collect _ l => 1 + (W - l)
    | .send _ _ l => 2 + W + (W - l)) ≤ n * (2 * W + 3) := by
    split at hph
    · exact Nat.mul_le_mul_right _ h.rn
    · rename_i acc l hp
      have := Nat.mul_le_mul_right (2 * W + 3) hph.1
      rw [Nat.succ_mul] at this
      omega
    · rename_i acc x l hp
      have := Nat.mul_le_mul_right (2 * W + 3) hph.rn
      rw [Nat.succ_mul] at this
      omega
  unfold progress
  have e : n * (4 * W + 3) = n * (2 * W + 3) + W * (2 * n) := by ring
  omega

end Lemmas
