import Verif.Spec.Sumcheck

/-!
What the linear layers compute, and what it means for a sumcheck run to have been lucky, independent of
provers and verifiers. Matrices are row-major lists; all dimensions are powers of two.
-/

namespace Spec
open Polynomial

variable {F : Type} [Field F]

/-- `y = W x + b` with `W` of `2^m` rows and `2^n` columns. -/
def denseOut (m n : ℕ) (W x b : List F) : List F :=
  (List.range (2 ^ m)).map fun i =>
    (∑ j ∈ Finset.range (2 ^ n), W.getD (i * 2 ^ n + j) 0 * x.getD j 0) + b.getD i 0

/-- `L R + bias` with `L` of `2^m` rows and `2^n` columns and an output of `2^c` columns. `R` is `2^n × 2^c`, or
`2^c × 2^n` if it is given transposed. The bias is added to every row. -/
def matmulOut (m n c : ℕ) (transposed : Bool) (L R bias : List F) : List F :=
  (List.range (2 ^ m * 2 ^ c)).map fun o =>
    (∑ k ∈ Finset.range (2 ^ n), L.getD (o / 2 ^ c * 2 ^ n + k) 0 *
      (if transposed then R.getD (o % 2 ^ c * 2 ^ n + k) 0 else R.getD (k * 2 ^ c + o % 2 ^ c) 0))
    + bias.getD (o % 2 ^ c) 0

/-- A cheating prover of a sumcheck about `g` (`n` variables, degree `D`) was lucky: in some round the polynomial
through the values it sent differs from the true round polynomial, yet both agree at the challenge drawn
after that message. At most `D` challenges have this property. -/
def LuckyRound (D n : ℕ) (g : List F → F) (messages : List (List F)) (point : List F) : Prop :=
  ∃ (i : ℕ) (msg : List F) (M : F[X]), i < n ∧
    messages[i]? = some msg ∧ msg.length = D + 1 ∧ M.natDegree ≤ D ∧
    (∀ k : ℕ, k ≤ D → M.eval (k : F) = msg.getD k 0) ∧
    (∃ x, M.eval x ≠ cubeSum (n - 1 - i) fun b => g (point.take i ++ x :: b)) ∧
    M.eval (point.getD i 0) = cubeSum (n - 1 - i) fun b => g (point.take i ++ point.getD i 0 :: b)

end Spec
