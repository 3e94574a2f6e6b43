import Verif.Model.WholeProof

/-!
What the prover meets on its way back through the graph.
-/

namespace Spec

open Model

variable {L P TP C S F : Type} [Field F] [DecidableEq F]

/-- On its way back through the graph the prover is never in a bad state with bad claims. `s` is the state at the start of the pass, `outC` are the claims about the outputs. -/
def NeverBad (papi : ProverApi L P TP C S F) (g : Graph L) (trace : ℕ → List (Tensor F) × List (Tensor F)) (bad : ℕ → List (Claim F) → S → Prop) (outC : List (Claim F)) (s : S) : Prop :=
  ∀ (done : List ℕ) (a : ℕ) (todo : List ℕ), backwardOrder g = done ++ a :: todo → ∀ (n : Node L) (st : (S × List (ℕ × P)) × List (ℕ × List (Claim F))) (claims : List (Claim F)), (a, n) ∈ g →
    done.foldlM (backwardStep (proveNode papi trace) g outC) ((s, []), []) = some st → claimsForNode n st.2 outC = some claims → ¬bad a claims st.1.1

end Spec
