import Verif.Model.Commit

/-!
What each call on the opening bookkeeping says should be opened: a specification in terms of the context (the committed polynomials) alone.
-/

namespace Spec

open Model

variable {C K F : Type} [DecidableEq K]

/-- The polynomials a call is about, each with the value claimed for it. -/
def opened (ctx : CommitCtx C K) : CommitCall C K F → List (Committed C × Claim F)
  | .witness p claim => [(p, claim)]
  | .common node claims =>
    if claims.isEmpty then []
    else ((ctx.model.lookup node).getD []).filterMap fun p => (claims.lookup p.1).map fun claim => (p.2, claim)
  | .table k claim => ((ctx.tables.lookup k).map fun p => (p, claim)).toList

/-- The call gives claims about the weights of `node`. -/
def isCommon (node : ℕ) : CommitCall C K F → Bool
  | .common n claims => n == node && !claims.isEmpty
  | _ => false

/-- The call gives a claim about the table `k`. -/
def isTable (k : K) : CommitCall C K F → Bool
  | .table k' _ => k' == k
  | _ => false

/-- The maps of a context have one entry for each key. -/
structure DistinctKeys (ctx : CommitCtx C K) : Prop where
  nodes : (ctx.model.map (·.1)).Nodup
  polys : ∀ n ∈ ctx.model, (n.2.map (·.1)).Nodup
  tables : (ctx.tables.map (·.1)).Nodup

end Spec
