import Verif.Model.Worker

/-! What the properties of the worker talk about: the requests posted, the requests completed, the proofs handed out, and the results of a sequence of jobs. -/

namespace Spec

open Model

variable {Req Pf Job St : Type}

/-- The requests posted in a schedule, oldest first. -/
def posted (es : List (ApiEvent Req Pf)) : List Req :=
  es.filterMap fun e => match e with
    | .post r => some r
    | _ => none

/-- The proofs handed out, in order. -/
def handedOut (as : List (ApiAnswer Pf)) : List Pf :=
  as.filterMap fun a => match a with
    | .proof p => p
    | .none => none

/-- The requests completed while a schedule runs, with their results, in order. -/
def completed (s : ApiState Req Pf) : List (ApiEvent Req Pf) → List (Req × Option (List Pf))
  | [] => []
  | e :: es =>
    (match e, s.busy with
      | .finish result, some r => [(r, result)]
      | _, _ => []) ++ completed (apiStep s e).1 es

/-- The results of jobs run one after the other. -/
def jobResults (job : St → Job → St × Option (List Pf)) : St → List Job → List (Option (List Pf))
  | _, [] => []
  | st, j :: js => (job st j).2 :: jobResults job (job st j).1 js

end Spec
