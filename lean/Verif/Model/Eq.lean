import Mathlib.Algebra.Field.Basic

/-!
Model of the `eq` polynomial helpers:
`multilinear_extensions/src/virtual_poly.rs:308-446`, `zkml/src/commit/mod.rs:10-54`,
`mpcs/src/sum_check.rs:126-135`.
-/

namespace Model

variable {F : Type} [Field F]

/-- One step of the inner loop of `build_eq_x_r_helper_sequential`, virtual_poly.rs:381-386, with
`index = 2*j`: read `buf[j]`, write `buf[2j+1] = r*prev` and `buf[2j] = prev - r*prev`. -/
def eqStep (r : F) (buf : List F) (j : ℕ) : List F :=
  let prev := buf.getD j 0
  let tmp := r * prev
  (buf.set (2 * j + 1) tmp).set (2 * j) (prev - tmp)

/-- `(0..next_size).step_by(2).rev()` with `next_size = 1 << (i+1)`, virtual_poly.rs:373-387. -/
def eqRound (r : F) (i : ℕ) (buf : List F) : List F :=
  (List.range (2 ^ i)).reverse.foldl (eqStep r) buf

/-- `build_eq_x_r_helper_sequential`, virtual_poly.rs:370-388. `buf` holds arbitrary
(uninitialised) values on entry. -/
def eqHelper (r : List F) (buf : List F) (init : F) : List F :=
  (r.reverse.zipIdx).foldl (fun b ri => eqRound ri.1 ri.2 b) (buf.set 0 init)

/-- `build_eq_x_r_vec_sequential`, virtual_poly.rs:346-366; `garbage` stands for the uninitialised
vector of length `1 << r.len()`. -/
def buildEqSeq (r : List F) (garbage : List F) : List F :=
  if r = [] then [1] else eqHelper r garbage 1

/-- `build_eq_x_r_vec`, virtual_poly.rs:414-452, on a machine with `2^nbits` usable threads.
Thread `tid` fills chunk `tid`; `garbage tid` is that chunk's uninitialised memory and
`garbageT` the one of the table of the high variables. -/
def buildEqPar (nbits : ℕ) (r : List F) (garbageT : List F) (garbage : ℕ → List F) : List F :=
  if r = [] then [1]
  else if r.length < nbits then buildEqSeq r garbageT
  else
    let eqTs := buildEqSeq (r.drop (r.length - nbits)) garbageT
    ((List.range (2 ^ nbits)).map fun tid =>
      eqHelper (r.take (r.length - nbits)) (garbage tid) (eqTs.getD tid 0)).flatten

/-- One step of the inner loop of `compute_betas_eval`, zkml/src/commit/mod.rs:20-25. -/
def betasStep (rElem : F) (temp : List F) (betas : List F) (j : ℕ) : List F :=
  let item := temp.getD j 0
  let t := rElem * item
  (betas.set (2 * j) (item - t)).set (2 * j + 1) t

/-- `compute_betas_eval`, zkml/src/commit/mod.rs:10-28. -/
def computeBetas (r : List F) : List F :=
  (List.range r.length).foldl
    (fun betas i =>
      let temp := betas.take (2 ^ i)
      (List.range (2 ^ i)).foldl (betasStep (r.getD (r.length - 1 - i) 0) temp) betas)
    ((List.replicate (2 ^ r.length) 0).set 0 1)

/-- `eq_eval`, virtual_poly.rs:308-319: asserts equal lengths. -/
def eqEval (x y : List F) : Option F :=
  if x.length = y.length then
    some ((x.zip y).foldl
      (fun res p => res * (p.1 * p.2 + p.1 * p.2 - p.1 - p.2 + 1)) 1)
  else none

/-- `identity_eval`, zkml/src/commit/mod.rs:45-53: truncates to the shorter point. -/
def identityEval (r1 r2 : List F) : F :=
  let n := min r1.length r2.length
  ((r1.take n).zip (r2.take n)).foldl
    (fun e p => e * (p.1 * p.2 + (1 - p.1) * (1 - p.2))) 1

/-- `eq_xy_eval`, mpcs/src/sum_check.rs:126-135: asserts nonempty and equal lengths. -/
def eqXYEval (x y : List F) : Option F :=
  if x ≠ [] ∧ x.length = y.length then
    some ((x.zip y).map (fun p => (p.1 * p.2 + p.1 * p.2) + 1 - p.1 - p.2)).prod
  else none

/-- `aggregated_rlc`, zkml/src/commit/mod.rs:31-38: asserts equal lengths. The parallel fold/reduce
is modelled as the sequential sum (field addition is associative and commutative). -/
def aggregatedRlc (claims challenges : List F) : Option F :=
  if claims.length = challenges.length then
    some ((claims.zip challenges).map (fun p => p.1 * p.2)).sum
  else none

end Model
