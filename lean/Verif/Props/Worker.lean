import Verif.Spec.Worker
import Verif.Props.Store

/-! C54, C55, C70: the worker. -/

namespace Props

open Model Lemmas Spec

variable {B Bytes I E T Tr Ctx P M Pf Req Job St Payload : Type}

/-! ### C54: the local API -/

theorem dropLast_append_getLast? {A : Type} (l : List A) : l.dropLast ++ l.getLast?.toList = l := by
  rcases List.eq_nil_or_concat l with rfl | ⟨l', a, rfl⟩ <;> simp

/-- C54, the part that holds. Over every schedule no request is lost or processed twice, and no proof is lost or handed out twice: the posted requests (and those already
there) are those completed, the one in progress and those waiting; the proofs of the completed requests are those handed out and those waiting. -/
theorem C54_accounting_partial : ∀ (es : List (ApiEvent Req Pf)) (s : ApiState Req Pf),
    (s.work ++ s.busy.toList ++ posted es).Perm ((completed s es).map (·.1) ++ (apiRun s es).1.busy.toList ++ (apiRun s es).1.work) ∧
    (s.proofs ++ (completed s es).flatMap fun c => c.2.getD []).Perm (handedOut (apiRun s es).2 ++ (apiRun s es).1.proofs)
  | [], s => by
    simp [completed, apiRun, posted, handedOut, List.perm_append_comm]
  | e :: es, s => by
    obtain ⟨h₁, h₂⟩ := C54_accounting_partial es (apiStep s e).1
    classical
    simp only [apiRun, completed]
    cases e with
    | post r =>
      simp only [apiStep] at h₁ h₂ ⊢
      refine ⟨?_, by simpa [handedOut] using h₂⟩
      refine List.Perm.trans ?_ (by simpa using h₁)
      rw [List.perm_iff_count]
      intro a
      simp only [posted, List.filterMap_cons, List.count_append, List.count_cons, List.append_assoc, List.count_nil]
      omega
    | take =>
      cases hb : s.busy with
      | some r =>
        simp only [apiStep, hb] at h₁ h₂ ⊢
        exact ⟨by simpa [posted] using h₁, by simpa [handedOut] using h₂⟩
      | none =>
        simp only [apiStep, hb] at h₁ h₂ ⊢
        refine ⟨?_, by simpa [handedOut] using h₂⟩
        have hw : s.work ++ ([] : List Req) = s.work.dropLast ++ s.work.getLast?.toList := by rw [dropLast_append_getLast?, List.append_nil]
        simpa [posted, hw] using h₁
    | finish result =>
      cases hb : s.busy with
      | none =>
        simp only [apiStep, hb] at h₁ h₂ ⊢
        exact ⟨by simpa [posted] using h₁, by simpa [handedOut] using h₂⟩
      | some r =>
        simp only [apiStep, hb] at h₁ h₂ ⊢
        constructor
        · simp only [posted, List.filterMap_cons, Option.toList_some, Option.toList_none, List.append_nil, List.append_assoc, List.singleton_append, List.map_cons, List.cons_append] at h₁ ⊢
          refine List.Perm.trans List.perm_middle ?_
          exact h₁.cons r
        · simpa [handedOut, List.append_assoc] using h₂
    | get =>
      simp only [apiStep] at h₁ h₂ ⊢
      refine ⟨by simpa [posted] using h₁, ?_⟩
      rw [List.perm_iff_count] at h₂ ⊢
      intro a
      have hcnt := congrArg (List.count a) (dropLast_append_getLast? s.proofs)
      have := h₂ a
      cases hl : s.proofs.getLast? with
      | none =>
        simp only [hl, Option.toList_none, List.count_append, List.count_nil] at hcnt
        simp only [handedOut, List.filterMap_cons, List.count_append, List.nil_append] at this ⊢
        omega
      | some p =>
        simp only [hl, Option.toList_some, List.count_append] at hcnt
        simp only [handedOut, List.filterMap_cons, List.count_append, List.nil_append, List.count_cons, List.count_nil] at this hcnt ⊢
        omega

/-- The round of the background task: take a request and finish it. -/
def rounds (results : List (Option (List Pf))) : List (ApiEvent Req Pf) := results.flatMap fun r => [.take, .finish r]

/-- C54. While nothing is posted, as many rounds as there are waiting requests complete them all; the order is the reverse of their arrival. -/
theorem C54_drained_partial (results : List (Option (List Pf))) : ∀ (s : ApiState Req Pf), s.busy = none → results.length = s.work.length →
    completed s (rounds results) = s.work.reverse.zip results ∧ (apiRun s (rounds results)).1.work = [] ∧ (apiRun s (rounds results)).1.busy = none := by
  induction results with
  | nil =>
    intro s hb hl
    have : s.work = [] := List.length_eq_zero_iff.mp hl.symm
    simp [rounds, completed, apiRun, this, hb]
  | cons r rs ih =>
    intro s hb hl
    rcases List.eq_nil_or_concat s.work with hw | ⟨w, a, hw⟩
    · simp [hw] at hl
    · obtain ⟨h₁, h₂, h₃⟩ := ih ⟨w, s.proofs ++ r.getD [], none⟩ rfl (by simp [hw] at hl; omega)
      have e : (rounds (r :: rs) : List (ApiEvent Req Pf)) = .take :: .finish r :: rounds rs := by simp [rounds]
      have e₁ : apiStep s (.take : ApiEvent Req Pf) = (⟨w, s.proofs, some a⟩, .none) := by simp [apiStep, hb, hw]
      have e₂ : apiStep (⟨w, s.proofs, some a⟩ : ApiState Req Pf) (.finish r) = (⟨w, s.proofs ++ r.getD [], none⟩, .none) := by simp [apiStep]
      refine ⟨?_, ?_, ?_⟩
      · rw [e]
        simp only [completed, e₁, e₂, h₁, hw]
        simp
      · rw [e, apiRun, apiRun, e₁, e₂]; exact h₂
      · rw [e, apiRun, apiRun, e₁, e₂]; exact h₃

example : completed (⟨[1, 2, 3], [], none⟩ : ApiState ℕ ℕ) (rounds [some [10], none, some [30, 31]]) = [(3, some [10]), (2, none), (1, some [30, 31])] := by decide

example : posted ([.post 1, .take, .post 2, .get, .finish (some [7])] : List (ApiEvent ℕ ℕ)) = [1, 2] ∧
    completed (⟨[], [], none⟩ : ApiState ℕ ℕ) [.post 1, .take, .post 2, .get, .finish (some [7])] = [(1, some [7])] := by decide

/-- C54 is false: requests are not answered in order. Of any two requests waiting, the later is processed first, and its proofs are handed out last. -/
theorem C54_order_false (r₁ r₂ : Req) (p₁ p₂ : Pf) :
    completed ⟨[], [], none⟩ [.post r₁, .post r₂, .take, .finish (some [p₁]), .take, .finish (some [p₂]), .get, .get] = [(r₂, some [p₁]), (r₁, some [p₂])] ∧
    handedOut (apiRun (⟨[], [], none⟩ : ApiState Req Pf) [.post r₁, .post r₂, .take, .finish (some [p₁]), .take, .finish (some [p₂]), .get, .get]).2 = [p₂, p₁] := ⟨rfl, rfl⟩

/-- C54 is false: a request can be starved. If a new request arrives in every round, the first one is never completed, however many rounds there are. -/
theorem C54_starvation_false (r₀ r : Req) (result : Option (List Pf)) (n : ℕ) :
    completed ⟨[], [], none⟩ (.post r₀ :: .post r :: (List.replicate n [.take, .finish result, .post r]).flatten) = List.replicate n (r, result) ∧
    r₀ ∈ (apiRun ⟨[], [], none⟩ (.post r₀ :: .post r :: (List.replicate n [.take, .finish result, .post r]).flatten)).1.work := by
  have key : ∀ (n : ℕ) (ps : List Pf),
      completed ⟨[r₀, r], ps, none⟩ (List.replicate n [.take, .finish result, .post r]).flatten = List.replicate n (r, result) ∧
      (apiRun ⟨[r₀, r], ps, none⟩ (List.replicate n [.take, .finish result, .post r]).flatten).1.work = [r₀, r] := by
    intro n
    induction n with
    | zero => intro ps; exact ⟨rfl, rfl⟩
    | succ n ih =>
      intro ps
      obtain ⟨h₁, h₂⟩ := ih (ps ++ result.getD [])
      simp only [List.replicate_succ, List.flatten_cons, List.cons_append, List.nil_append]
      constructor
      · simp only [completed, apiStep, List.dropLast, List.getLast?_cons_cons, List.getLast?_singleton, List.nil_append, List.cons_append]
        rw [h₁]
      · simp only [apiRun, apiStep, List.dropLast, List.getLast?_cons_cons, List.getLast?_singleton, List.nil_append, List.cons_append]
        exact h₂
  obtain ⟨h₁, h₂⟩ := key n []
  constructor
  · simpa [completed, apiStep] using h₁
  · simp only [apiRun, apiStep, List.nil_append, List.cons_append]
    rw [h₂]
    exact List.mem_cons_self

/-- C54 is false: a request that fails leaves no trace. Posting it, taking it and failing brings the service back to exactly the state before, so that its client can never
learn anything about it. -/
theorem C54_failure_unanswered_false (s : ApiState Req Pf) (hb : s.busy = none) (r : Req) :
    (apiRun s [.post r, .take, .finish none]).1 = s := by
  cases s
  simp_all [apiRun, apiStep]

/-- C54 is false: a proof handed out does not tell which request it belongs to. The service is in the same state, whichever of two requests it has proved. -/
theorem C54_anonymous_false (s : ApiState Req Pf) (hb : s.busy = none) (r₁ r₂ : Req) (ps : List Pf) :
    (apiRun s [.post r₁, .take, .finish (some ps)]).1 = (apiRun s [.post r₂, .take, .finish (some ps)]).1 := by
  cases s
  simp_all [apiRun, apiStep]

/-! ### C55: the gateway clients -/

/-- C55, gRPC. The replies carry the ids of the messages, in order and once each, up to the first message that cannot be decoded or replied to. -/
theorem C55_grpc_ids_partial (decode : Payload → Option Job) (job : St → Job → St × Option (List Pf)) (sendOk : ℕ → Bool) : ∀ (ms : List (ℕ × Payload)) (st : St),
    (grpcLoop decode job sendOk st ms).map (·.taskId) = (ms.takeWhile fun m => (decode m.2).isSome && sendOk m.1).map (·.1)
  | [], _ => rfl
  | m :: ms, st => by
    rw [grpcLoop, List.takeWhile_cons]
    cases hd : decode m.2 with
    | none => simp
    | some j =>
      cases hs : sendOk m.1 with
      | false => simp [hs]
      | true => simp [hs, C55_grpc_ids_partial decode job sendOk ms]

/-- C55, gRPC. If every message can be decoded and replied to, there is exactly one reply for each, in order, and it carries the outcome of that job. -/
theorem C55_grpc_replies_partial (decode : Payload → Option Job) (job : St → Job → St × Option (List Pf)) (sendOk : ℕ → Bool) : ∀ (ms : List (ℕ × Payload)) (js : List Job) (st : St),
    ms.map (fun m => decode m.2) = js.map some → (∀ m ∈ ms, sendOk m.1 = true) →
    grpcLoop decode job sendOk st ms = List.zipWith WorkerReply.mk (ms.map (·.1)) (jobResults job st js)
  | [], js, _, h, _ => by
    cases js <;> simp_all [grpcLoop, jobResults]
  | m :: ms, js, st, h, hs => by
    cases js with
    | nil => simp at h
    | cons j js =>
      simp only [List.map_cons, List.cons.injEq] at h
      have ih := C55_grpc_replies_partial decode job sendOk ms js (job st j).1 h.2 (fun m' hm => hs m' (List.mem_cons_of_mem _ hm))
      simp [grpcLoop, h.1, hs m (by simp), jobResults, ih]

example : (fun (p : ℕ) => if p < 10 then some p else none) 3 = some 3 ∧
    (grpcLoop (fun p : ℕ => if p < 10 then some p else none) (fun (st : ℕ) (j : ℕ) => (st + 1, some [st, j])) (fun _ => true) 0 [(5, 3), (6, 4)]).map (fun r => (r.taskId, r.result)) =
      [(5, some [0, 3]), (6, some [1, 4])] := by decide

/-- C55 is false for gRPC: a message that cannot be decoded is not answered, and neither are those after it: the worker ends. -/
theorem C55_grpc_undecodable_false (decode : Payload → Option Job) (job : St → Job → St × Option (List Pf)) (sendOk : ℕ → Bool) (m : ℕ × Payload) (hm : decode m.2 = none)
    (rest : List (ℕ × Payload)) : ∀ (ms : List (ℕ × Payload)) (st : St), grpcLoop decode job sendOk st (ms ++ m :: rest) = grpcLoop decode job sendOk st ms
  | [], st => by simp [grpcLoop, hm]
  | m' :: ms, st => by
    simp only [List.cons_append, grpcLoop]
    cases decode m'.2 with
    | none => rfl
    | some j => simp [C55_grpc_undecodable_false decode job sendOk m hm rest ms]

/-- Sending with retries succeeds exactly if some attempt does. -/
theorem retryOperation_ok : ∀ as : List Attempt, (retryOperation as).2 = true ↔ Attempt.ok ∈ as
  | [] => by simp [retryOperation]
  | .ok :: _ => by simp [retryOperation]
  | .lost :: as => by simp [retryOperation, retryOperation_ok as]
  | .deliveredButFailed :: as => by simp [retryOperation, retryOperation_ok as]

/-- It is received once if no attempt is received whose acknowledgement is lost. -/
theorem retryOperation_once : ∀ as : List Attempt, Attempt.ok ∈ as → Attempt.deliveredButFailed ∉ as → retryOperation as = (1, true)
  | [], h, _ => by simp at h
  | .ok :: _, _, _ => rfl
  | .lost :: as, h, h' => by
    simp only [List.mem_cons, not_or] at h h'
    simp [retryOperation, retryOperation_once as (by simpa using h) h'.2]
  | .deliveredButFailed :: as, _, h' => by simp at h'

/-- C55, HTTP. If every fetch succeeds, and every submission in the end does and is never received without an acknowledgement, the gateway gets exactly one reply per job, in
order, with the outcome of that job. -/
theorem C55_http_replies_partial (job : St → Job → St × Option (List Pf)) : ∀ (ts : List (HttpTurn Job)) (js : List (ℕ × Job)) (st : St),
    ts.map (·.job) = js.map some → (∀ t ∈ ts, Attempt.ok ∈ t.attempts ∧ Attempt.deliveredButFailed ∉ t.attempts) →
    httpLoop job st ts = List.zipWith WorkerReply.mk (js.map (·.1)) (jobResults job st (js.map (·.2)))
  | [], js, _, h, _ => by
    cases js <;> simp_all [httpLoop, jobResults]
  | t :: ts, js, st, h, hs => by
    cases js with
    | nil => simp at h
    | cons j js =>
      simp only [List.map_cons, List.cons.injEq] at h
      have ih := C55_http_replies_partial job ts js (job st j.2).1 h.2 (fun t' ht => hs t' (List.mem_cons_of_mem _ ht))
      have ho := retryOperation_once t.attempts (hs t (by simp)).1 (hs t (by simp)).2
      simp [httpLoop, h.1, ho, jobResults, ih]

example : (httpLoop (fun (st : ℕ) (j : ℕ) => (st + 1, if j = 0 then none else some [st, j])) 0 [⟨some (5, 3), [.lost, .ok]⟩, ⟨some (6, 0), [.ok]⟩]).map (fun r => (r.taskId, r.result)) =
    [(5, some [0, 3]), (6, none)] := by decide

/-- C55, HTTP. Whatever happens to the requests, the gateway only gets replies to jobs it gave out, each at least once unless the worker ends. -/
theorem C55_http_at_least_once_partial (job : St → Job → St × Option (List Pf)) (st : St) (t : HttpTurn Job) (ts : List (HttpTurn Job)) (id : ℕ) (j : Job)
    (hj : t.job = some (id, j)) (hok : Attempt.ok ∈ t.attempts) :
    ∃ n, httpLoop job st (t :: ts) = List.replicate (n + 1) ⟨id, (job st j).2⟩ ++ httpLoop job (job st j).1 ts := by
  have h₂ := (retryOperation_ok t.attempts).mpr hok
  have h₁ : ∀ as : List Attempt, Attempt.ok ∈ as → 1 ≤ (retryOperation as).1 := by
    intro as
    induction as with
    | nil => intro h; simp at h
    | cons a as ih =>
      intro h
      cases a with
      | ok => simp [retryOperation]
      | lost => simp only [List.mem_cons, reduceCtorEq, false_or] at h; simpa [retryOperation] using ih h
      | deliveredButFailed => simp [retryOperation]
  refine ⟨(retryOperation t.attempts).1 - 1, ?_⟩
  have := h₁ _ hok
  simp [httpLoop, hj, h₂, show (retryOperation t.attempts).1 - 1 + 1 = (retryOperation t.attempts).1 by omega]

/-- C55 is false for HTTP: if the gateway receives a result but its answer is lost, it receives the result again. -/
theorem C55_http_duplicate_false (job : St → Job → St × Option (List Pf)) (st : St) (id : ℕ) (j : Job) :
    httpLoop job st [⟨some (id, j), [.deliveredButFailed, .ok]⟩] = [⟨id, (job st j).2⟩, ⟨id, (job st j).2⟩] := by
  simp [httpLoop, retryOperation]

/-- C55 is false for HTTP: one failed request for a job ends the worker, although every other request is retried. -/
theorem C55_http_fetch_false (job : St → Job → St × Option (List Pf)) (st : St) (as : List Attempt) (ts : List (HttpTurn Job)) : httpLoop job st (⟨none, as⟩ :: ts) = [] := rfl

/-- C55. The proofs of a job are, in order, the proofs of the inputs whose run succeeds. -/
theorem C55_proofs_partial (env : ProveEnv Bytes I E T Tr Ctx P M Pf) (ctx : Ctx) (model : M) : ∀ (es : List E) (ps : List Pf), proveInputs env ctx model es = some ps →
    (∀ e ∈ es, ∃ t, env.load model e = some t) ∧
    List.Forall₂ (fun e p => ∃ t tr, env.load model e = some t ∧ env.run model t = some tr ∧ env.prove ctx tr = some p)
      (es.filter fun e => ((env.load model e).bind (env.run model)).isSome) ps
  | [], ps, h => by
    simp only [proveInputs, Option.some.injEq] at h
    subst h
    simp
  | e :: es, ps, h => by
    rw [proveInputs] at h
    obtain ⟨t, ht, h⟩ := Option.bind_eq_some_iff.mp h
    cases hr : env.run model t with
    | none =>
      simp only [hr] at h
      obtain ⟨h₁, h₂⟩ := C55_proofs_partial env ctx model es ps h
      refine ⟨?_, ?_⟩
      · intro e' he'
        rcases List.mem_cons.mp he' with rfl | he'
        · exact ⟨t, ht⟩
        · exact h₁ e' he'
      · simpa [List.filter_cons, ht, hr] using h₂
    | some tr =>
      simp only [hr] at h
      obtain ⟨p, hp, h⟩ := Option.bind_eq_some_iff.mp h
      obtain ⟨qs, hq, h⟩ := Option.bind_eq_some_iff.mp h
      simp only [Option.some.injEq] at h
      subst h
      obtain ⟨h₁, h₂⟩ := C55_proofs_partial env ctx model es qs hq
      refine ⟨?_, ?_⟩
      · intro e' he'
        rcases List.mem_cons.mp he' with rfl | he'
        · exact ⟨t, ht⟩
        · exact h₁ e' he'
      · have hf : ((e :: es).filter fun e => ((env.load model e).bind (env.run model)).isSome) =
            e :: es.filter fun e => ((env.load model e).bind (env.run model)).isSome := by simp [List.filter_cons, ht, hr]
        rw [hf]
        exact List.Forall₂.cons ⟨t, tr, ht, hr, hp⟩ h₂

/-- C55. If every input can be loaded, run and proved, there is one proof per input, in order. -/
theorem C55_one_proof_per_input (env : ProveEnv Bytes I E T Tr Ctx P M Pf) (ctx : Ctx) (model : M) : ∀ (es : List E) (ps : List Pf),
    List.Forall₂ (fun e p => ∃ t tr, env.load model e = some t ∧ env.run model t = some tr ∧ env.prove ctx tr = some p) es ps → proveInputs env ctx model es = some ps
  | [], ps, h => by cases h; rfl
  | e :: es, ps, h => by
    cases h with
    | cons hd tl =>
      obtain ⟨t, tr, h₁, h₂, h₃⟩ := hd
      simp [proveInputs, h₁, h₂, h₃, C55_one_proof_per_input env ctx model es _ tl]

/-- C55 is false: an input whose run fails gets no proof, and the reply does not say which: the job with the failing input gets the same reply as the job without it, wherever
the input stands. -/
theorem C55_input_dropped_false (env : ProveEnv Bytes I E T Tr Ctx P M Pf) (ctx : Ctx) (model : M) (bad : E) (t : T) (hl : env.load model bad = some t) (hr : env.run model t = none) :
    ∀ pre post : List E, proveInputs env ctx model (pre ++ bad :: post) = proveInputs env ctx model (pre ++ post)
  | [], post => by simp [proveInputs, hl, hr]
  | e :: pre, post => by
    simp only [List.cons_append, proveInputs, C55_input_dropped_false env ctx model bad t hl hr pre post]

/-- C55 is false: an input that cannot be loaded (of a wrong length) makes the whole job fail, after any proofs already made. -/
theorem C55_load_error_false (env : ProveEnv Bytes I E T Tr Ctx P M Pf) (ctx : Ctx) (model : M) (bad : E) (hl : env.load model bad = none) :
    ∀ pre post : List E, proveInputs env ctx model (pre ++ bad :: post) = none
  | [], post => by simp [proveInputs, hl]
  | e :: pre, post => by
    simp only [List.cons_append, proveInputs, C55_load_error_false env ctx model bad hl pre post]
    cases env.load model e with
    | none => rfl
    | some t => cases hrun : env.run model t <;> simp [hrun]

/-- A toy instance: models are numbers, an input is a pair, running fails on inputs whose second part is 0. -/
def toyProveEnv : ProveEnv ℕ (ℕ × ℕ) (ℕ × ℕ) (ℕ × ℕ) ℕ ℕ ℕ ℕ (ℕ × ℕ) where
  hash b := toString b
  parse b := some b
  quantize _ i := i
  generate m p := some (m + p.getD 100)
  params c := c
  load m e := if e.1 = m then some e else none
  run _ t := if t.2 = 0 then none else some t.2
  prove c t := some (c, t)

example : proveInputs toyProveEnv 107 7 [(7, 1), (7, 0), (7, 3)] = some [(107, 1), (107, 3)] ∧ proveInputs toyProveEnv 107 7 [(7, 1), (8, 2)] = none := by decide

/-- Everything goes well and no other worker interferes. -/
def noFaults (B : Type) : RunFaults B := ⟨false, false, .stored, id, false, .stored⟩

/-- C55. On a store that has neither the parameters nor the model, without faults, a job gets the proofs of its inputs. -/
theorem C55_fresh_job (env : ProveEnv Bytes I E T Tr Ctx P M Pf) (cp : Codec P B) (cm : Codec M B) (encode : String → String) (major : String) (req : ProveRequest Bytes I)
    (s : S3State B) (hc : s.cache = none) (hp : mapGet (paramsKey encode major (env.hash req.model)) s.objects = none)
    (hm : mapGet (modelKey encode (env.hash req.model) req.strategy req.inputHash) s.objects = none)
    (hne : paramsKey encode major (env.hash req.model) ≠ modelKey encode (env.hash req.model) req.strategy req.inputHash)
    (model : M) (hparse : env.parse req.model = some model) (ctx : Ctx) (hgen : env.generate model none = some ctx) :
    (runModelV1 env cp cm encode major (noFaults B) req s).2 = proveInputs env ctx model (req.inputs.map (env.quantize model)) := by
  simp [runModelV1, noFaults, s3GetParams, cacheGet, hc, hp, s3GetOrInit, hm, hparse, cacheFill, s3Put, hgen, s3InsertParams, s3InsertCache, s3InsertCheck, mapGet_mapSet, hne]

example : (runModelV1 toyProveEnv (plain ℕ) (plain ℕ) id "1" (noFaults ℕ) ⟨7, [(7, 1), (7, 3)], .absoluteMax, none⟩ ⟨[], none⟩).2 = some [(107, 1), (107, 3)] := by decide +kernel

/-- C55 is false under concurrency: if another worker stores parameters for the same model between this worker's read and its own insertion, the job fails with an error
although it could have been proved. -/
theorem C55_race_false (env : ProveEnv Bytes I E T Tr Ctx P M Pf) (cp : Codec P B) (cm : Codec M B) (encode : String → String) (major : String) (req : ProveRequest Bytes I)
    (s : S3State B) (hc : s.cache = none) (hp : mapGet (paramsKey encode major (env.hash req.model)) s.objects = none) (b : B) (f : RunFaults B) (hget : f.getFault = false)
    (hothers : ∀ s, f.others s = { s with objects := mapSet (paramsKey encode major (env.hash req.model)) b s.objects }) (hhead : f.headFault = false) :
    (runModelV1 env cp cm encode major f req s).2 = none := by
  have e₁ : s3GetParams cp (paramsKey encode major (env.hash req.model)) f.getFault s = (s, some none) := by
    simp [s3GetParams, cacheGet, hc, hp, hget]
  simp only [runModelV1, e₁]
  have hc₂ : (s3GetOrInit cm (modelKey encode (env.hash req.model) req.strategy req.inputHash) (env.parse req.model) f.modelFault f.modelPut s).1.cache = none :=
    s3Step_cache_none cp cm s hc (.getOrInit _ _ _ _)
  rcases hgi : s3GetOrInit cm (modelKey encode (env.hash req.model) req.strategy req.inputHash) (env.parse req.model) f.modelFault f.modelPut s with ⟨s₂, r⟩
  rw [hgi] at hc₂
  cases r with
  | none => rfl
  | some model =>
    simp only
    cases env.generate model none with
    | none => rfl
    | some ctx =>
      have hc₂' : s₂.cache = none := hc₂
      simp [hothers, s3InsertParams, s3InsertCache, hc₂', s3InsertCheck, hhead, mapGet_mapSet]

/-- The hypotheses are met: the same job is proved without the interference and fails with it. -/
example : (runModelV1 toyProveEnv (plain ℕ) (plain ℕ) id "1" { noFaults ℕ with others := fun s => { s with objects := mapSet (paramsKey id "1" "7") 107 s.objects } }
    ⟨7, [(7, 1)], .absoluteMax, none⟩ ⟨[], none⟩).2 = none := by decide +kernel

/-- C52 is false for whole jobs: with the file cache enabled every job fails, on every bucket, whatever the request. -/
theorem C52_every_job_fails_false (env : ProveEnv Bytes I E T Tr Ctx P M Pf) (cp : Codec P B) (cm : Codec M B) (encode : String → String) (hne : encode "Model" ≠ "") (hne' : encode "Params" ≠ "") (major : String)
    (f : RunFaults B) (req : ProveRequest Bytes I) (objects : List (List String × B)) (ops : List (StoreOp P M)) (hkeys : ∀ op ∈ ops, op.key ≠ []) :
    (runModelV1 env cp cm encode major f req (s3Run cp cm ⟨objects, some []⟩ ops).1).2 = none := by
  obtain ⟨⟨fs, h₁, h₂⟩, -⟩ := s3Run_cached cp cm ops ⟨objects, some []⟩ [] rfl (by intro p b; simp [mapGet]) hkeys
  generalize (s3Run cp cm ⟨objects, some []⟩ ops).1 = s at h₁
  have hpk : paramsKey encode major (env.hash req.model) ≠ [] := by simp [paramsKey, storePath, List.filter_cons, hne']
  have hmk : modelKey encode (env.hash req.model) req.strategy req.inputHash ≠ [] := by
    cases req.inputHash <;> simp [modelKey, storePath, List.filter_cons, hne]
  obtain ⟨⟨fs₁, a₁, a₂⟩, -, -⟩ := s3Step_cached cp cm h₁ h₂ (.getParams (paramsKey encode major (env.hash req.model)) f.getFault) hpk
  simp only [s3Step] at a₁
  rw [runModelV1]
  rcases hg : s3GetParams cp (paramsKey encode major (env.hash req.model)) f.getFault s with ⟨s₁, r⟩
  rw [hg] at a₁
  cases r with
  | none => simp only [hg]
  | some stored =>
    obtain ⟨-, -, hm⟩ := s3Step_cached cp cm a₁ a₂ (.getOrInit (modelKey encode (env.hash req.model) req.strategy req.inputHash) (env.parse req.model) f.modelFault f.modelPut) hmk
    simp only [s3Step] at hm
    rcases hgi : s3GetOrInit cm (modelKey encode (env.hash req.model) req.strategy req.inputHash) (env.parse req.model) f.modelFault f.modelPut s₁ with ⟨s₂, r⟩
    rw [hgi] at hm
    cases r with
    | none => simp only [hg, hgi]
    | some m => exact absurd rfl (hm m)

/-- C53 is false across versions of the package: the key of a model does not contain the version. A model stored by one version is used by the next, although that would have
parsed the file to another model. -/
theorem C53_version_false (env : ProveEnv Bytes I E T Tr Ctx P M Pf) (cp : Codec P B) (cm : Codec M B) (hround : ∀ v, cm.dec (cm.enc v) = some v) (encode : String → String) (major : String)
    (req : ProveRequest Bytes I) (s : S3State B) (hc : s.cache = none) (hp : mapGet (paramsKey encode major (env.hash req.model)) s.objects = none)
    (old : M) (hm : mapGet (modelKey encode (env.hash req.model) req.strategy req.inputHash) s.objects = some (cm.enc old)) (ctx : Ctx) (hgen : env.generate old none = some ctx) :
    (runModelV1 env cp cm encode major (noFaults B) req s).2 = proveInputs env ctx old (req.inputs.map (env.quantize old)) := by
  simp [runModelV1, noFaults, s3GetParams, cacheGet, hc, hp, s3GetOrInit, hm, hround, cacheFill, s3Put, hgen, s3InsertParams, s3InsertCache, s3InsertCheck]

/-- The hypotheses are met: version 2 parses the file to another model, but proves with the one of version 1. -/
example : (runModelV1 { toyProveEnv with parse := fun b => some (b + 1) } (plain ℕ) (plain ℕ) id "2" (noFaults ℕ) ⟨7, [(7, 1)], .absoluteMax, none⟩
    (runModelV1 toyProveEnv (plain ℕ) (plain ℕ) id "1" (noFaults ℕ) ⟨7, [], .absoluteMax, none⟩ ⟨[], none⟩).1).2 = some [(107, 1)] ∧
    (runModelV1 { toyProveEnv with parse := fun b => some (b + 1) } (plain ℕ) (plain ℕ) id "2" (noFaults ℕ) ⟨7, [(8, 1)], .absoluteMax, none⟩ ⟨[], none⟩).2 = some [(108, 1)] := by
  decide +kernel

/-! ### C70: the scaling strategy -/

/-- C70 is false: the requested scaling strategy and the hash of the data it should be calibrated on have no influence on the proofs, on a store that has no model for either
request. `parse_model` always uses the same strategy. -/
theorem C70_strategy_ignored_false (env : ProveEnv Bytes I E T Tr Ctx P M Pf) (cp : Codec P B) (cm : Codec M B) (encode : String → String) (hinj : Function.Injective encode)
    (hempty : ∀ s, encode s = "" ↔ s = "") (major : String) (file : Bytes) (inputs : List I) (k₁ k₂ : ScalingKind) (i₁ i₂ : Option String) (s : S3State B) (hc : s.cache = none)
    (hp : mapGet (paramsKey encode major (env.hash file)) s.objects = none) (h₁ : mapGet (modelKey encode (env.hash file) k₁ i₁) s.objects = none)
    (h₂ : mapGet (modelKey encode (env.hash file) k₂ i₂) s.objects = none) :
    (runModelV1 env cp cm encode major (noFaults B) ⟨file, inputs, k₁, i₁⟩ s).2 = (runModelV1 env cp cm encode major (noFaults B) ⟨file, inputs, k₂, i₂⟩ s).2 := by
  have hne := C53_kinds encode hinj hempty major (env.hash file) (env.hash file)
  cases hparse : env.parse file with
  | none => simp [runModelV1, noFaults, s3GetParams, cacheGet, hc, hp, s3GetOrInit, h₁, h₂, hparse]
  | some model =>
    cases hgen : env.generate model none with
    | none => simp [runModelV1, noFaults, s3GetParams, cacheGet, hc, hp, s3GetOrInit, h₁, h₂, hparse, cacheFill, s3Put, hgen]
    | some ctx =>
      rw [C55_fresh_job env cp cm encode major ⟨file, inputs, k₁, i₁⟩ s hc hp h₁ (hne k₁ i₁) model hparse ctx hgen,
        C55_fresh_job env cp cm encode major ⟨file, inputs, k₂, i₂⟩ s hc hp h₂ (hne k₂ i₂) model hparse ctx hgen]

/-- The hypotheses are met by the empty store and two requests. -/
example : (runModelV1 toyProveEnv (plain ℕ) (plain ℕ) id "1" (noFaults ℕ) ⟨7, [(7, 1)], .absoluteMax, none⟩ ⟨[], none⟩).2 = some [(107, 1)] ∧
    (runModelV1 toyProveEnv (plain ℕ) (plain ℕ) id "1" (noFaults ℕ) ⟨7, [(7, 1)], .inferenceObserver, some "D5"⟩ ⟨[], none⟩).2 = some [(107, 1)] := by decide +kernel

end Props
