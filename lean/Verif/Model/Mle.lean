import Mathlib.Algebra.Field.Basic

/-!
Model of `multilinear_extensions/src/mle.rs` (dense and ranged multilinear extensions).

Simplifications: `FieldType::Base` / `FieldType::Ext` are both a `List F` (base elements are embedded
in `F`); failed assertions are `none`. rayon's `par_iter().chunks(2).map(..).collect()` is the
sequential map (rayon's indexed `collect` keeps the order).
-/

namespace Model

variable {F : Type} [Field F]

/-- `DenseMultilinearExtension`, multilinear_extensions/src/mle.rs:176-181 (fields `evaluations`, `num_vars`). -/
structure Mle (F : Type) where
  numVars : ℕ
  evals : List F
deriving DecidableEq

/-- `from_evaluations_vec` / `from_evaluations_ext_vec`, mle.rs:236-272: asserts the length. -/
def Mle.ofEvals (nv : ℕ) (evals : List F) : Option (Mle F) :=
  if evals.length = 2 ^ nv then some ⟨nv, evals⟩ else none

/-- `evaluations.chunks(2).map(|buf| *point * (buf[1] - buf[0]) + buf[0])`,
mle.rs:470-473, 502-504, 648-652, 680-685. A trailing odd element makes the code panic
(`buf[1]` out of range); the tables have length `2^num_vars` so this case is not reachable when a
variable is left, and the model drops the element. -/
def chunkFix (p : F) : List F → List F
  | a :: b :: t => (p * (b - a) + a) :: chunkFix p t
  | _ => []

/-- One step of the in-place loop `evaluations[b >> 1] = evaluations[b] + (evaluations[b + 1] -
evaluations[b]) * *point` for `b = 2*i`, mle.rs:508-511. -/
def fixInPlaceStep (p : F) (e : List F) (i : ℕ) : List F :=
  e.set i (e.getD (2 * i) 0 + (e.getD (2 * i + 1) 0 - e.getD (2 * i) 0) * p)

/-- The in-place loop over `b` in `(0..evaluations.len()).step_by(2)`, mle.rs:508. The vector is *not*
shortened between points: the tail holds stale values until the final `truncate`. -/
def fixInPlacePoint (p : F) (e : List F) : List F :=
  (List.range (e.length / 2)).foldl (fixInPlaceStep p) e

/-- `fix_variables_in_place` on `FieldType::Ext`, mle.rs:486-525. -/
def Mle.fixVariablesInPlace (m : Mle F) (pp : List F) : Option (Mle F) :=
  if pp.length ≤ m.numVars then
    let e := pp.foldl (fun e p => fixInPlacePoint p e) m.evals
    some ⟨m.numVars - pp.length, e.take (2 ^ (m.numVars - pp.length))⟩
  else none

/-- `fix_variables`, mle.rs:454-482: the first point builds a fresh vector with `chunks(2)`, every
further point calls `fix_variables_in_place(&[point])`. -/
def Mle.fixVariables (m : Mle F) (pp : List F) : Option (Mle F) :=
  if pp.length ≤ m.numVars then
    match pp with
    | [] => some m
    | p :: ps => do
        let first ← Mle.ofEvals (m.numVars - 1) (chunkFix p m.evals)
        ps.foldlM (fun q p => q.fixVariablesInPlace [p]) first
  else none

/-- The two passes of `fix_variables_in_place_parallel` for one point, mle.rs:688-699: first
`buf[0] = buf[0] + (buf[1] - buf[0]) * point` on every chunk of two, then
`evaluations[index] = evaluations[index << 1]` for `index` in `0..1 << (max_log2_size - 1)`. -/
def fixParChunks (p : F) : List F → List F
  | a :: b :: t => (a + (b - a) * p) :: b :: fixParChunks p t
  | l => l

/-- mle.rs:696-698. -/
def compactStep (e : List F) (index : ℕ) : List F :=
  e.set index (e.getD (2 * index) 0)

/-- mle.rs:688-699. -/
def fixParPoint (maxLog2Size : ℕ) (p : F) (e : List F) : List F :=
  (List.range (2 ^ (maxLog2Size - 1))).foldl compactStep (fixParChunks p e)

/-- `fix_variables_in_place_parallel` on `FieldType::Ext`, mle.rs:665-712. -/
def Mle.fixVariablesInPlaceParallel (m : Mle F) (pp : List F) : Option (Mle F) :=
  if pp.length ≤ m.numVars then
    let e := (pp.zipIdx).foldl (fun e pi => fixParPoint (m.numVars - pi.2) pi.1 e) m.evals
    some ⟨m.numVars - pp.length, e.take (2 ^ (m.numVars - pp.length))⟩
  else none

/-- `fix_variables_parallel`, mle.rs:631-661. -/
def Mle.fixVariablesParallel (m : Mle F) (pp : List F) : Option (Mle F) :=
  if pp.length ≤ m.numVars then
    match pp with
    | [] => some m
    | p :: ps => do
        let first ← Mle.ofEvals (m.numVars - 1) (chunkFix p m.evals)
        ps.foldlM (fun q p => q.fixVariablesInPlaceParallel [p]) first
  else none

/-- `lo.par_iter().zip(hi).map(|(lo, hi)| *point * (*hi - *lo) + *lo)` with
`(lo, hi) = evaluations.split_at(half)`, mle.rs:544-549. -/
def highFix (p : F) (half : ℕ) (e : List F) : List F :=
  List.zipWith (fun lo hi => p * (hi - lo) + lo) (e.take half) (e.drop half)

/-- `lo.par_iter_mut().zip(hi).for_each(|(lo, hi)| *lo += (*hi - *lo) * *point)`, mle.rs:585-589:
the first `half` entries are updated, the rest stays. -/
def highFixInPlace (p : F) (half : ℕ) (e : List F) : List F :=
  List.zipWith (fun lo hi => lo + (hi - lo) * p) (e.take half) (e.drop half) ++ e.drop half

/-- `fix_high_variables_in_place` on `FieldType::Ext`, mle.rs:562-603. The state of the loop is the
vector and `current_eval_size`. -/
def Mle.fixHighVariablesInPlace (m : Mle F) (pp : List F) : Option (Mle F) :=
  if pp.length ≤ m.numVars then
    let s := pp.reverse.foldl
      (fun (s : List F × ℕ) p => (highFixInPlace p (s.2 / 2) s.1, s.2 / 2)) (m.evals, m.evals.length)
    some ⟨m.numVars - pp.length, s.1.take s.2⟩
  else none

/-- `fix_high_variables`, mle.rs:529-558. -/
def Mle.fixHighVariables (m : Mle F) (pp : List F) : Option (Mle F) :=
  if pp.length ≤ m.numVars then
    match pp.reverse with
    | [] => some m
    | p :: ps => do
        let first ← Mle.ofEvals (m.numVars - 1) (highFix p (m.evals.length / 2) m.evals)
        ps.foldlM (fun q p => q.fixHighVariablesInPlace [p]) first
  else none

/-- `evaluate`, mle.rs:607-623. -/
def Mle.evaluate (m : Mle F) (point : List F) : Option F :=
  if m.numVars = point.length then do
    let q ← m.fixVariablesParallel point
    match q.evals with
    | [v] => some v
    | _ => none
  else none

/-- `ceil_log2`, multilinear_extensions/src/util.rs:16-21: `usize_bits - (x - 1).leading_zeros()`,
i.e. the number of significant bits of `x - 1`; panics on `0`. -/
def ceilLog2 (x : ℕ) : Option ℕ :=
  if x = 0 then none else if x = 1 then some 0 else some (Nat.log2 (x - 1) + 1)

/-- `merge`, mle.rs:740-762 (same field type on both sides): append and recompute `num_vars`. -/
def Mle.merge (m rhs : Mle F) : Option (Mle F) := do
  let nv ← ceilLog2 (m.evals.length + rhs.evals.length)
  some ⟨nv, m.evals ++ rhs.evals⟩

/-- `RangedMultilinearExtension`, mle.rs:841-846. -/
structure RangedMle (F : Type) where
  inner : Mle F
  start : ℕ
  offset : ℕ
  numVars : ℕ

/-- `get_ranged_mle` and `RangedMultilinearExtension::new`, mle.rs:765-774, 849-862. -/
def Mle.getRanged (m : Mle F) (numRange rangeIndex : ℕ) : Option (RangedMle F) :=
  if 0 < numRange then do
    let offset := m.evals.length / numRange
    let start := offset * rangeIndex
    if offset ≤ m.evals.length then
      let nv ← ceilLog2 offset
      some ⟨m, start, offset, nv⟩
    else none
  else none

/-- `evaluations[start..][..offset]`: what the view shows, mle.rs:881, 910, 949-951. -/
def RangedMle.view (m : RangedMle F) : List F := (m.inner.evals.drop m.start).take m.offset

/-- `RangedMultilinearExtension::fix_variables`, mle.rs:867-892. -/
def RangedMle.fixVariables (m : RangedMle F) (pp : List F) : Option (Mle F) :=
  if pp.length ≤ m.numVars then
    match pp with
    | [] => some m.inner
    | p :: ps => do
        let first ← Mle.ofEvals (m.numVars - 1) (chunkFix p m.view)
        first.fixVariablesInPlace ps
  else none

/-- `RangedMultilinearExtension::fix_high_variables`, mle.rs:898-923. -/
def RangedMle.fixHighVariables (m : RangedMle F) (pp : List F) : Option (Mle F) :=
  if pp.length ≤ m.numVars then
    match pp.reverse with
    | [] => some m.inner
    | p :: ps => do
        let first ← Mle.ofEvals (m.numVars - 1) (highFix p (m.offset / 2) m.view)
        first.fixHighVariablesInPlace ps.reverse
  else none

/-- `RangedMultilinearExtension::evaluate`, mle.rs:929-931: the range is not consulted. -/
def RangedMle.evaluate (m : RangedMle F) (point : List F) : Option F := m.inner.evaluate point

/-- `RangedMultilinearExtension::fix_variables_parallel`, mle.rs:937-939. -/
def RangedMle.fixVariablesParallel (m : RangedMle F) (pp : List F) : Option (Mle F) :=
  m.inner.fixVariablesParallel pp

end Model
