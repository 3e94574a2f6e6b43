import Verif.Model.Store

/-!
The worker: `run_model_v1` (`deep-prove/src/bin/worker/main.rs`), the local API (`api.rs`) and the two gateway clients (`lpn/grpc.rs`, `lpn/http.rs`).

Simplifications: parsing, quantising, running and proving are parameters; time and logging are dropped; the network is a list of outcomes.
-/

namespace Model

variable {B Bytes I E T Tr Ctx P M Pf Req Job : Type}

/-! ### One request -/

/-- `DeepProveRequest`, middleware/v1.rs:12-25. -/
structure ProveRequest (Bytes I : Type) where
  model : Bytes
  inputs : List I
  strategy : ScalingKind
  inputHash : Option String

/-- What `run_model_v1` calls: the hash of the model file (main.rs:42-45), `parse_model` (main.rs:146-151), `Input::to_elements` (zkml/src/inputs.rs:64-71),
`Context::generate` (main.rs:80-85), the parameters in a context (main.rs:96-99), `load_input_flat`, `run` and `prove` (main.rs:109-132). -/
structure ProveEnv (Bytes I E T Tr Ctx P M Pf : Type) where
  hash : Bytes → String
  parse : Bytes → Option M
  quantize : M → I → E
  generate : M → Option P → Option Ctx
  params : Ctx → P
  load : M → E → Option T
  run : M → T → Option Tr
  prove : Ctx → Tr → Option Pf

/-- The loop over the inputs, main.rs:107-136: an error of `load_input_flat` or `prove` ends it, an input whose run fails is skipped. -/
def proveInputs (env : ProveEnv Bytes I E T Tr Ctx P M Pf) (ctx : Ctx) (model : M) : List E → Option (List Pf)
  | [] => some []
  | e :: es => do
    let t ← env.load model e
    match env.run model t with
    | none => proveInputs env ctx model es
    | some tr => do
      let p ← env.prove ctx tr
      let ps ← proveInputs env ctx model es
      some (p :: ps)

/-- The requests to S3 made during one call of `run_model_v1`, and what other workers do to the bucket between the reading and the storing of the parameters. -/
structure RunFaults (B : Type) where
  getFault : Bool
  modelFault : Bool
  modelPut : PutOutcome
  others : S3State B → S3State B
  headFault : Bool
  paramsPut : PutOutcome

/-- `run_model_v1`, main.rs:33-144, on the S3 store. -/
def runModelV1 (env : ProveEnv Bytes I E T Tr Ctx P M Pf) (cp : Codec P B) (cm : Codec M B) (encode : String → String) (major : String) (f : RunFaults B)
    (req : ProveRequest Bytes I) (s : S3State B) : S3State B × Option (List Pf) :=
  let h := env.hash req.model
  match s3GetParams cp (paramsKey encode major h) f.getFault s with
  | (s₁, none) => (s₁, none)
  | (s₁, some stored) =>
    match s3GetOrInit cm (modelKey encode h req.strategy req.inputHash) (env.parse req.model) f.modelFault f.modelPut s₁ with
    | (s₂, none) => (s₂, none)
    | (s₂, some model) =>
      match env.generate model stored with
      | none => (s₂, none)
      | some ctx =>
        let s₃ := f.others s₂
        if stored.isSome then (s₃, proveInputs env ctx model (req.inputs.map (env.quantize model)))
        else
          match s3InsertParams cp (paramsKey encode major h) (env.params ctx) f.headFault f.paramsPut s₃ with
          | (s₄, false) => (s₄, none)
          | (s₄, true) => (s₄, proveInputs env ctx model (req.inputs.map (env.quantize model)))

/-! ### The local API -/

/-- `AppState`, api.rs:31-35, and the request the background task is working on. -/
structure ApiState (Req Pf : Type) where
  work : List Req
  proofs : List Pf
  busy : Option Req

/-- What can happen: a request is posted (api.rs:131-143), the background task takes a request (api.rs:82) and finishes it with proofs or an error (api.rs:83-93), a proof is
requested (api.rs:119-128). -/
inductive ApiEvent (Req Pf : Type)
  | post (r : Req)
  | take
  | finish (result : Option (List Pf))
  | get

/-- What the outside sees: nothing, or the answer to a request for a proof. -/
inductive ApiAnswer (Pf : Type)
  | none
  | proof (p : Option Pf)

/-- One event. `Vec::pop` takes the last element. The task takes a request only when it is not busy, and finishes only when it is. -/
def apiStep (s : ApiState Req Pf) : ApiEvent Req Pf → ApiState Req Pf × ApiAnswer Pf
  | .post r => ({ s with work := s.work ++ [r] }, .none)
  | .take =>
    match s.busy with
    | some _ => (s, .none)
    | none => ({ s with work := s.work.dropLast, busy := s.work.getLast? }, .none)
  | .finish result =>
    match s.busy with
    | none => (s, .none)
    | some _ => ({ s with proofs := s.proofs ++ result.getD [], busy := none }, .none)
  | .get => ({ s with proofs := s.proofs.dropLast }, .proof s.proofs.getLast?)

/-- A schedule: the final state and the answers. -/
def apiRun : ApiState Req Pf → List (ApiEvent Req Pf) → ApiState Req Pf × List (ApiAnswer Pf)
  | s, [] => (s, [])
  | s, e :: es =>
    let r := apiStep s e
    let q := apiRun r.1 es
    (q.1, r.2 :: q.2)

/-! ### The gRPC client -/

/-- `WorkerDone`, lpn/grpc.rs:54-71. -/
structure WorkerReply (Pf : Type) where
  taskId : ℕ
  result : Option (List Pf)

/-- The loop of `lpn/grpc.rs:157-180` with `process_message_from_gw` (36-79), for the messages received one after the other: `decode` is decompression and deserialisation of
the payload, `job` runs the model, `sendOk` whether the reply can be sent. The loop ends, with the error, when a message cannot be decoded or a reply cannot be sent. The
result is the list of replies sent. -/
def grpcLoop {St Payload : Type} (decode : Payload → Option Job) (job : St → Job → St × Option (List Pf)) (sendOk : ℕ → Bool) :
    St → List (ℕ × Payload) → List (WorkerReply Pf)
  | _, [] => []
  | st, m :: ms =>
    match decode m.2 with
    | none => []
    | some j =>
      let r := job st j
      if sendOk m.1 then ⟨m.1, r.2⟩ :: grpcLoop decode job sendOk r.1 ms else []

/-! ### The HTTP client -/

/-- What becomes of one attempt to send something to the gateway. -/
inductive Attempt
  | ok
  | lost
  | deliveredButFailed
deriving DecidableEq

/-- `retry_operation`, lpn/http.rs:15-48: attempts until one succeeds or the last one has failed. How often the gateway got the message, and whether an attempt
succeeded. -/
def retryOperation : List Attempt → ℕ × Bool
  | [] => (0, false)
  | .ok :: _ => (1, true)
  | .lost :: rest => retryOperation rest
  | .deliveredButFailed :: rest => let r := retryOperation rest; (r.1 + 1, r.2)

/-- One turn of the loop of `lpn/http.rs:206-231`: the job fetched (`none` if that fails or it cannot be decoded), the attempts at submitting the result. The acknowledgement
has no influence. -/
structure HttpTurn (Job : Type) where
  job : Option (ℕ × Job)
  attempts : List Attempt

/-- The loop of `lpn/http.rs:206-231` with `process_job` (163-180): the messages the gateway gets. It ends, with the error, when no job can be fetched (there is no retry)
or the result cannot be submitted. -/
def httpLoop {St : Type} (job : St → Job → St × Option (List Pf)) : St → List (HttpTurn Job) → List (WorkerReply Pf)
  | _, [] => []
  | st, t :: ts =>
    match t.job with
    | none => []
    | some (id, j) =>
      let r := job st j
      let q := retryOperation t.attempts
      List.replicate q.1 ⟨id, r.2⟩ ++ if q.2 then httpLoop job r.1 ts else []

end Model
