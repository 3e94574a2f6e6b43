import Verif.Spec.Sumcheck

/-! Specification for the opening of one polynomial, independent of the model. -/

namespace Spec

variable {F : Type} [Field F]

/-- The sum over the cube of `eq(point, ·) f(·)` with the last variables fixed to `suffix`. Without fixed variables it is the value of the
multilinear extension of `f` at `point`. -/
def openSum (f point suffix : List F) : F :=
  cubeSum (point.length - suffix.length) fun x => eqPoly point (x ++ suffix) * mle f (x ++ suffix)

/-- The quadratic polynomial with coefficients `m` at `X`. -/
def quadEval (m : List F) (X : F) : F := m.getD 0 0 + X * m.getD 1 0 + X * X * m.getD 2 0

/-- The prover of an opening was lucky: some message differs from the true round polynomial of `f`, yet both agree at the challenge drawn after
that message. -/
def LuckyOpening (f point : List F) (messages : List (List F)) (challenges : List F) : Prop :=
  ∃ (i : ℕ) (m : List F), i < challenges.length ∧ messages[i]? = some m ∧
    (∃ X, quadEval m X ≠ openSum f point (X :: (challenges.take i).reverse)) ∧
    quadEval m (challenges.getD i 0) = openSum f point (challenges.getD i 0 :: (challenges.take i).reverse)

end Spec
