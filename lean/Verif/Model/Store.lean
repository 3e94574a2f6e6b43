import Verif.Model.Graph

/-!
The key-value store for parameters and scaled models, `deep-prove/src/store.rs`.

Simplifications: a key is the list of the segments of its path; serialised values are an abstract type `B` of byte strings with an encoder and a decoder; the futures run to
completion one after the other unless a definition says otherwise; S3 is a map, each request to it may fail; the local file system does not fail by itself (disk full,
permissions), only as a directory tree does.
-/

namespace Model

variable {B P M : Type}

/-! ### Keys -/

/-- `ScalingStrategyKind`, zkml/src/quantization/strategy.rs:41-45. -/
inductive ScalingKind
  | inferenceObserver
  | absoluteMax
deriving DecidableEq

/-- Its `Display`, derived at zkml/src/quantization/strategy.rs:41. -/
def ScalingKind.display : ScalingKind → String
  | .inferenceObserver => "InferenceObserver"
  | .absoluteMax => "AbsoluteMax"

/-- `object_store`'s `Path::from_iter`, used at store.rs:355 and 370-378: every part is encoded (`encode` is the library's percent encoding, which escapes the delimiter),
empty parts are left out, and the rest are joined by the delimiter. The path is represented by its segments. -/
def storePath (encode : String → String) (parts : List String) : List String := (parts.map encode).filter (· ≠ "")

/-- `params_key`, store.rs:349-356; `major` is the major version of the package. -/
def paramsKey (encode : String → String) (major modelHash : String) : List String := storePath encode ["Params", major, modelHash]

/-- `model_key`, store.rs:359-379. -/
def modelKey (encode : String → String) (modelHash : String) (strategy : ScalingKind) (inputHash : Option String) : List String :=
  match inputHash with
  | some h => storePath encode ["Model", modelHash, strategy.display, h]
  | none => storePath encode ["Model", modelHash, strategy.display]

/-! ### The file system of the cache -/

/-- A file or a directory. -/
inductive FsNode (B : Type)
  | dir
  | file (bytes : B)

/-- The contents of the cache directory (store.rs:99-104), by path below it. -/
abbrev Fs (B : Type) := List (List String × FsNode B)

/-- `fs::try_exists`. -/
def fsExists (p : List String) (fs : Fs B) : Bool := (mapGet p fs).isSome

/-- `fs::read`: fails on a directory. -/
def fsRead (p : List String) (fs : Fs B) : Option B :=
  match mapGet p fs with
  | some (.file b) => some b
  | _ => none

/-- One directory of `fs::create_dir_all`: fails on a file. -/
def fsCreateDir (fs : Fs B) (p : List String) : Option (Fs B) :=
  match mapGet p fs with
  | some .dir => some fs
  | some (.file _) => none
  | none => some (mapSet p .dir fs)

/-- `fs::create_dir_all`: the path and all the directories on the way to it. -/
def fsCreateDirAll (p : List String) (fs : Fs B) : Option (Fs B) := (p.inits.drop 1).foldlM fsCreateDir fs

/-- `fs::write`: fails on a directory, and when the directory of the file does not exist. -/
def fsWrite (p : List String) (b : B) (fs : Fs B) : Option (Fs B) :=
  match mapGet p fs with
  | some .dir => none
  | some (.file _) => some (mapSet p (.file b) fs)
  | none =>
    match mapGet p.dropLast fs with
    | some .dir => some (mapSet p (.file b) fs)
    | some (.file _) => none
    | none => if p.dropLast = [] then some (mapSet p (.file b) fs) else none

/-! ### The S3 store -/

/-- A serialisation format: `serde_json::to_vec` and `serde_json::from_slice`. -/
structure Codec (V B : Type) where
  enc : V → B
  dec : B → Option V

/-- `S3Store`, store.rs:84-87: the objects in the bucket and the file system cache, if there is one. -/
structure S3State (B : Type) where
  objects : List (List String × B)
  cache : Option (Fs B)

/-- What becomes of a `put` request: it is done, it has no effect and an error is returned, or it is done and an error is returned (for example a timeout). -/
inductive PutOutcome
  | stored
  | lost
  | storedButFailed

/-- `store.put(..)`: the new state, and whether it succeeded. -/
def s3Put (outcome : PutOutcome) (k : List String) (b : B) (s : S3State B) : S3State B × Bool :=
  match outcome with
  | .stored => ({ s with objects := mapSet k b s.objects }, true)
  | .lost => (s, false)
  | .storedButFailed => ({ s with objects := mapSet k b s.objects }, false)

/-- Reading through the cache, store.rs:117-127 and 215-225: `none` if the cache does not have the key (or there is none), otherwise the result, `some none` being an error. -/
def cacheGet {V : Type} (c : Codec V B) (k : List String) (s : S3State B) : Option (Option V) :=
  match s.cache with
  | none => none
  | some fs => if fsExists k fs then some ((fsRead k fs).bind c.dec) else none

/-- Writing to the cache, store.rs:135-142, 171-176, 234-241, 251-258: `create_dir_all(&path)`, then `write(&path, ..)`; whether it succeeded. -/
def cacheFill (k : List String) (b : B) (s : S3State B) : S3State B × Bool :=
  match s.cache with
  | none => (s, true)
  | some fs =>
    match fsCreateDirAll k fs with
    | none => (s, false)
    | some fs₁ =>
      match fsWrite k b fs₁ with
      | none => ({ s with cache := some fs₁ }, false)
      | some fs₂ => ({ s with cache := some fs₂ }, true)

/-- `get_params`, store.rs:108-152; `fault`: the request to S3 fails. The result is `none` for an error. -/
def s3GetParams (c : Codec P B) (k : List String) (fault : Bool) (s : S3State B) : S3State B × Option (Option P) :=
  match cacheGet c k s with
  | some r => (s, r.map some)
  | none =>
    if fault then (s, none) else
    match mapGet k s.objects with
    | none => (s, some none)
    | some b =>
      match c.dec b with
      | none => (s, none)
      | some v =>
        let r := cacheFill k b s
        (r.1, if r.2 then some (some v) else none)

/-- The check of `insert_params`, store.rs:180-192: the insertion goes on unless the `head` request succeeds, so also when it fails for another reason than that the key is
absent (`headFault`). -/
def s3InsertCheck (k : List String) (headFault : Bool) (s : S3State B) : Bool := headFault || (mapGet k s.objects).isNone

/-- The part of `insert_params` that writes to the cache, store.rs:166-178. -/
def s3InsertCache (k : List String) (b : B) (s : S3State B) : S3State B × Bool :=
  match s.cache with
  | none => (s, true)
  | some fs => if fsExists k fs then (s, true) else cacheFill k b s

/-- `insert_params`, store.rs:154-199: the new state, and whether it succeeded. -/
def s3InsertParams (c : Codec P B) (k : List String) (v : P) (headFault : Bool) (put : PutOutcome) (s : S3State B) : S3State B × Bool :=
  let r := s3InsertCache k (c.enc v) s
  if !r.2 then r else
  if s3InsertCheck k headFault r.1 then s3Put put k (c.enc v) r.1 else (r.1, false)

/-- `get_or_init_model_with`, store.rs:201-271; `init` is what the given function returns, `none` for an error. -/
def s3GetOrInit (c : Codec M B) (k : List String) (init : Option M) (fault : Bool) (put : PutOutcome) (s : S3State B) : S3State B × Option M :=
  match cacheGet c k s with
  | some r => (s, r)
  | none =>
    if fault then (s, none) else
    match mapGet k s.objects with
    | some b =>
      match c.dec b with
      | none => (s, none)
      | some v =>
        let r := cacheFill k b s
        (r.1, if r.2 then some v else none)
    | none =>
      match init with
      | none => (s, none)
      | some v =>
        let r := cacheFill k (c.enc v) s
        if !r.2 then (r.1, none) else
        let q := s3Put put k (c.enc v) r.1
        (q.1, if q.2 then some v else none)

/-- An operation of the store, with what becomes of its requests to S3. -/
inductive StoreOp (P M : Type)
  | getParams (k : List String) (fault : Bool)
  | insertParams (k : List String) (v : P) (headFault : Bool) (put : PutOutcome)
  | getOrInit (k : List String) (init : Option M) (fault : Bool) (put : PutOutcome)

/-- The key an operation is about, the first argument of the methods at store.rs:108-111, 154-158, 201-205. -/
def StoreOp.key : StoreOp P M → List String
  | .getParams k _ => k
  | .insertParams k _ _ _ => k
  | .getOrInit k _ _ _ => k

/-- Its result; `none` and `false` are errors. -/
inductive StoreRes (P M : Type)
  | params (r : Option (Option P))
  | inserted (ok : Bool)
  | model (r : Option M)

/-- One operation of the S3 store. -/
def s3Step (cp : Codec P B) (cm : Codec M B) (s : S3State B) : StoreOp P M → S3State B × StoreRes P M
  | .getParams k fault => let r := s3GetParams cp k fault s; (r.1, .params r.2)
  | .insertParams k v headFault put => let r := s3InsertParams cp k v headFault put s; (r.1, .inserted r.2)
  | .getOrInit k init fault put => let r := s3GetOrInit cm k init fault put s; (r.1, .model r.2)

/-- A history of operations: the final state and the results. -/
def s3Run (cp : Codec P B) (cm : Codec M B) : S3State B → List (StoreOp P M) → S3State B × List (StoreRes P M)
  | s, [] => (s, [])
  | s, op :: ops =>
    let r := s3Step cp cm s op
    let q := s3Run cp cm r.1 ops
    (q.1, r.2 :: q.2)

/-! ### The in-memory store -/

/-- `MemStore`, store.rs:276-279. -/
structure MemState (P M : Type) where
  pps : List (List String × P)
  models : List (List String × M)

/-- One operation of the in-memory store, store.rs:284-336; the flags for requests to S3 are not used. -/
def memStep (s : MemState P M) : StoreOp P M → MemState P M × StoreRes P M
  | .getParams k _ => (s, .params (some (mapGet k s.pps)))
  | .insertParams k v _ _ => ({ s with pps := mapSet k v s.pps }, .inserted true)
  | .getOrInit k init _ _ =>
    match mapGet k s.models with
    | some v => (s, .model (some v))
    | none =>
      match init with
      | none => (s, .model none)
      | some v => ({ s with models := mapSet k v s.models }, .model (some v))

/-- A history of operations of the in-memory store. -/
def memRun : MemState P M → List (StoreOp P M) → MemState P M × List (StoreRes P M)
  | s, [] => (s, [])
  | s, op :: ops =>
    let r := memStep s op
    let q := memRun r.1 ops
    (q.1, r.2 :: q.2)

end Model
