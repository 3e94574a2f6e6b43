import Verif.Model.Sumcheck
import Mathlib.Data.List.OfFn

/-!
The distributed sumcheck prover (`prove_batch_polys`, sumcheck/src/prover.rs:37-321): worker threads and
the main thread, which is itself a worker, exchange messages and challenges over channels
(transcript/src/synchronized.rs), then the main thread finishes with a second sumcheck over the worker
index.

`lockstep` is the schedule-free meaning of the first stage; `Step` is the actual concurrent system.
-/

namespace Model

variable {F : Type} [Field F] [DecidableEq F]

/-- One stage-1 round seen as a whole, prover.rs:157-188: every thread computes its message from the current
challenge, the main thread sums them (own message first) and draws the next challenge. `next` is what a
thread does in a round (`prove_round_and_update_state`); `none` is a panic. -/
def lockstep {S : Type} {W : ℕ} (D : ℕ) (next : S → Option F → Option (List F × S)) (T : Transcript F) :
    ℕ → S → (Fin W → S) → Option F → T.State →
      Option (List (List F) × S × (Fin W → S) × Option F × T.State)
  | 0, main, ws, ch, ts => some ([], main, ws, ch, ts)
  | n + 1, main, ws, ch, ts =>
    match next main ch with
    | none => none
    | some mm =>
      if h : ∀ w, (next (ws w) ch).isSome then
        let rs : Fin W → List F × S := fun w => (next (ws w) ch).get (h w)
        let msg := (List.ofFn fun w => (rs w).1).foldl addVec (addVec (List.replicate (D + 1) 0) mm.1)
        let ct := T.challenge (T.appendExts ts msg)
        match lockstep D next T n mm.2 (fun w => (rs w).2) (some ct.1) ct.2 with
        | none => none
        | some (msgs, main', ws', ch', ts') => some (msg :: msgs, main', ws', ch', ts')
      else none

/-- A worker's last step, prover.rs:119-134: record and bind the last challenge in place. -/
def workerFinish (st : ProverState F) (r : F) : Option (ProverState F) := do
  let ms ← st.mles.mapM fun m => if 0 < m.numVars then m.fixVariablesInPlace [r] else some m
  some { st with challenges := st.challenges ++ [r], mles := ms }

/-- `merge_sumcheck_polys`, util.rs:215-243: table `i` of the second stage lists the one remaining value of
table `i` of each worker. -/
def mergeTables (k : ℕ) (states : List (ProverState F)) (numTables : ℕ) : Option (List (Mle F)) :=
  (List.range numTables).mapM fun i => do
    let vals ← states.mapM fun s => do
      let m ← s.mles[i]?
      match m.evals with
      | [v] => some v
      | _ => none
    some ⟨k, vals⟩

/-- `prove_batch_polys`, prover.rs:37-321, with `2^k` polynomials `ws 0, …, ws (W-1), main`, all declared
with `n` variables and degree `D`. The first stage is taken in lock step (`Step` below is the concurrent
version). Not modelled: `Arc::get_mut` failing on shared tables, base/extension representation. -/
def proveBatch {W : ℕ} (threads : ℕ) (T : Transcript F) (D n k : ℕ)
    (ws : Fin W → List (F × List ℕ) × List (Mle F)) (main : List (F × List ℕ) × List (Mle F))
    (ts : T.State) : Option (IOPProof F × ProverState F × T.State) :=
  if W + 1 ≠ 2 ^ k then none
  else if n = 0 then
    let p0 := (List.ofFn ws ++ [main]).headD main
    some (⟨[], []⟩, ⟨[], 0, D, 0, p0.1, p0.2, []⟩, ts)
  else do
    let ts := T.appendUsize (T.appendUsize ts (n + k)) D
    let aux ← extrapolationAux threads D
    let init : List (F × List ℕ) × List (Mle F) → ProverState F := fun p => ⟨[], 0, D, n, p.1, p.2, aux⟩
    let (msgs, main, ws, ch, ts) ←
      lockstep D (proveRound .serial) T n (init main) (fun w => init (ws w)) none ts
    let r ← ch
    let wsts ← (List.ofFn ws).mapM fun s => workerFinish s r
    let mst ← proverFinish main r
    let states := wsts ++ [mst]
    let st0 ← states.head?
    if k = 0 then some (⟨st0.challenges, msgs⟩, st0, ts)
    else do
      let merged ← mergeTables k states st0.mles.length
      let (msgs2, st2, ch2, ts) ← proveLoop .serial T k ⟨[], 0, D, k, st0.products, merged, aux⟩ none ts
      let r2 ← ch2
      let st2 ← workerFinish st2 r2
      some (⟨st0.challenges ++ st2.challenges, msgs ++ msgs2⟩, st2, ts)

/-! ### The concurrent first stage -/

/-- Where the main thread is inside a round, prover.rs:157-188: about to compute its own message; collecting
`left` more worker messages; sending the challenge to `left` more workers. -/
inductive MainPhase (F : Type) where
  | compute
  | collect (acc : List F) (left : ℕ)
  | send (acc : List F) (c : F) (left : ℕ)

/-- A worker thread, prover.rs:99-118: its round, whether it has sent its message and waits for the
challenge, its prover state and the last challenge it received. -/
structure WorkerSt (S F : Type) where
  round : ℕ
  waiting : Bool
  st : S
  ch : Option F

/-- All threads and channels. `ef i` and `cq i` are the two message and the two challenge channels
(synchronized.rs:8-17), shared by all threads. -/
structure Cfg (S F State : Type) (W : ℕ) where
  round : ℕ
  phase : MainPhase F
  st : S
  ch : Option F
  ts : State
  out : List (List F)
  ws : Fin W → WorkerSt S F
  ef : ℕ → List (List F)
  cq : ℕ → List F

/-- `rolling_index` of a thread in the given round: starts at 0, `commit_rolling` after every round,
synchronized.rs:40,86-88. -/
def rolling (round : ℕ) : ℕ := round % 2

/-- The capacity of the channels, `bounded(max_thread_id)`, synchronized.rs:22-30. -/
def chanCap (W : ℕ) : ℕ := W + 1

/-- One step of one thread. A receive needs a nonempty channel, a send needs room (both block otherwise). -/
inductive Step {S : Type} {W : ℕ} (n D : ℕ) (next : S → Option F → Option (List F × S)) (T : Transcript F) :
    Cfg S F T.State W → Cfg S F T.State W → Prop
  /-- prover.rs:158-165 -/
  | mainCompute (c : Cfg S F T.State W) (m : List F) (s' : S) (hr : c.round < n)
      (hp : c.phase = .compute) (hn : next c.st c.ch = some (m, s')) :
      Step n D next T c { c with phase := .collect (addVec (List.replicate (D + 1) 0) m) W, st := s' }
  /-- prover.rs:166-169 -/
  | mainRecv (c : Cfg S F T.State W) (acc : List F) (l : ℕ) (msg : List F) (rest : List (List F))
      (hp : c.phase = .collect acc (l + 1)) (hq : c.ef (rolling c.round) = msg :: rest) :
      Step n D next T c { c with
        phase := .collect (addVec acc msg) l, ef := Function.update c.ef (rolling c.round) rest }
  /-- prover.rs:172-174 -/
  | mainChallenge (c : Cfg S F T.State W) (acc : List F) (hp : c.phase = .collect acc 0) :
      Step n D next T c { c with
        phase := .send acc (T.challenge (T.appendExts c.ts acc)).1 W
        ts := (T.challenge (T.appendExts c.ts acc)).2 }
  /-- prover.rs:175-177 -/
  | mainSend (c : Cfg S F T.State W) (acc : List F) (x : F) (l : ℕ)
      (hp : c.phase = .send acc x (l + 1)) (hq : (c.cq (rolling c.round)).length < chanCap W) :
      Step n D next T c { c with
        phase := .send acc x l
        cq := Function.update c.cq (rolling c.round) (c.cq (rolling c.round) ++ [x]) }
  /-- prover.rs:181-186 -/
  | mainNext (c : Cfg S F T.State W) (acc : List F) (x : F) (hp : c.phase = .send acc x 0) :
      Step n D next T c { c with
        phase := .compute, out := c.out ++ [acc], ch := some x, round := c.round + 1 }
  /-- prover.rs:106-110 -/
  | workerSend (c : Cfg S F T.State W) (w : Fin W) (m : List F) (s' : S) (hr : (c.ws w).round < n)
      (hw : (c.ws w).waiting = false) (hn : next (c.ws w).st (c.ws w).ch = some (m, s'))
      (hq : (c.ef (rolling (c.ws w).round)).length < chanCap W) :
      Step n D next T c { c with
        ws := Function.update c.ws w { c.ws w with waiting := true, st := s' }
        ef := Function.update c.ef (rolling (c.ws w).round) (c.ef (rolling (c.ws w).round) ++ [m]) }
  /-- prover.rs:112-115 -/
  | workerRecv (c : Cfg S F T.State W) (w : Fin W) (x : F) (rest : List F)
      (hw : (c.ws w).waiting = true) (hq : c.cq (rolling (c.ws w).round) = x :: rest) :
      Step n D next T c { c with
        ws := Function.update c.ws w
          { c.ws w with waiting := false, ch := some x, round := (c.ws w).round + 1 }
        cq := Function.update c.cq (rolling (c.ws w).round) rest }

/-- The configuration after spawning, prover.rs:73-98,140-156. -/
def Cfg.init {S : Type} {W : ℕ} (T : Transcript F) (main : S) (ws : Fin W → S) (ts : T.State) :
    Cfg S F T.State W :=
  { round := 0, phase := .compute, st := main, ch := none, ts := ts, out := [],
    ws := fun w => ⟨0, false, ws w, none⟩, ef := fun _ => [], cq := fun _ => [] }

/-- All threads have run their `n` rounds. -/
def Cfg.finished {S State : Type} {W : ℕ} (n : ℕ) (c : Cfg S F State W) : Prop :=
  c.round = n ∧ ∀ w, (c.ws w).round = n

/-- Executions: any interleaving of thread steps, with the number of steps taken. -/
inductive Steps {S : Type} {W : ℕ} (n D : ℕ) (next : S → Option F → Option (List F × S)) (T : Transcript F)
    (c0 : Cfg S F T.State W) : ℕ → Cfg S F T.State W → Prop
  | refl : Steps n D next T c0 0 c0
  | tail {k c c'} (h : Steps n D next T c0 k c) (h' : Step n D next T c c') : Steps n D next T c0 (k + 1) c'

end Model
