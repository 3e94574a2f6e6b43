import Verif.Model.Sumcheck
import Verif.Model.VirtualPoly

/-!
The calls every user of the sumcheck makes: `VirtualPolynomial::new(n)`, a sequence of `add_mle_list`, then
`IOPProverState::prove_parallel` and `get_mle_final_evaluations`.
-/

namespace Model

variable {F : Type} [Field F] [DecidableEq F]

/-- `VirtualPolynomial::new(n)` followed by `add_mle_list(tables, coefficient)` for each term. Tables are
addresses. -/
def buildVP (heap : ℕ → Mle F) (n : ℕ) (terms : List (F × List ℕ)) : Option (VirtualPoly F) :=
  terms.foldlM (fun vp t => vp.addMleList heap t.2 t.1) (VirtualPoly.new n)

/-- Build, `prove_parallel`, `get_mle_final_evaluations`. -/
def proveTerms (threads : ℕ) (T : Transcript F) (heap : ℕ → Mle F) (n : ℕ) (terms : List (F × List ℕ))
    (ts : T.State) : Option (IOPProof F × List F × T.State) := do
  let vp ← buildVP heap n terms
  let (proof, st, ts) ← prove threads (.parallel threads) T vp.maxDegree vp.maxNumVars vp.products
    (vp.flattened.map heap) ts
  let evals ← finalEvaluations st
  some (proof, evals, ts)

end Model
