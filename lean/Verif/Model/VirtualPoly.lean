import Verif.Model.Mle
import Mathlib.Algebra.BigOperators.Group.List.Basic

/-!
Model of `multilinear_extensions/src/virtual_poly.rs`, the builder of virtual polynomials.

An `Arc<dyn MultilinearExtension>` is an address; `heap` maps a live address to the (immutable) table
behind it. The `HashMap` from raw pointers to indices is an association list that is only ever
extended with absent keys.
-/

namespace Model

variable {F : Type} [Field F]

/-- `VirtualPolynomial`, virtual_poly.rs:50-59 with `VPAuxInfo`, 61-72. -/
structure VirtualPoly (F : Type) where
  maxDegree : ℕ
  maxNumVars : ℕ
  products : List (F × List ℕ)
  /-- `flattened_ml_extensions`: addresses -/
  flattened : List ℕ
  /-- `raw_pointers_lookup_table`: address ↦ index -/
  lookup : List (ℕ × ℕ)

/-- `VirtualPolynomial::new`, virtual_poly.rs:106-117. -/
def VirtualPoly.new (n : ℕ) : VirtualPoly F := ⟨0, n, [], [], []⟩

/-- `VirtualPolynomial::new_from_mle`, virtual_poly.rs:120-138. -/
def VirtualPoly.newFromMle (heap : ℕ → Mle F) (a : ℕ) (c : F) : VirtualPoly F :=
  ⟨1, (heap a).numVars, [(c, [0])], [a], [(a, 0)]⟩

/-- Find the index of an address or append it: virtual_poly.rs:169-178 and 199-209. -/
def VirtualPoly.intern (vp : VirtualPoly F) (a : ℕ) : VirtualPoly F × ℕ :=
  match vp.lookup.lookup a with
  | some i => (vp, i)
  | none =>
    ({ vp with flattened := vp.flattened ++ [a], lookup := (a, vp.flattened.length) :: vp.lookup },
      vp.flattened.length)

/-- The loop over `mle_list`, virtual_poly.rs:168-179. -/
def VirtualPoly.internList (vp : VirtualPoly F) : List ℕ → VirtualPoly F × List ℕ
  | [] => (vp, [])
  | a :: as =>
    let (vp1, i) := vp.intern a
    let (vp2, is) := vp1.internList as
    (vp2, i :: is)

/-- `add_mle_list`, virtual_poly.rs:147-181. -/
def VirtualPoly.addMleList (heap : ℕ → Mle F) (vp : VirtualPoly F) (as : List ℕ) (c : F) :
    Option (VirtualPoly F) :=
  match as with
  | [] => none
  | a :: _ =>
    if as.all fun x =>
        decide ((heap x).numVars ≤ vp.maxNumVars) && decide ((heap x).numVars = (heap a).numVars) then
      let (vp', is) := ({ vp with maxDegree := max vp.maxDegree as.length } : VirtualPoly F).internList as
      some { vp' with products := vp'.products ++ [(c, is)] }
    else none

/-- `mul_by_mle`, virtual_poly.rs:187-221. -/
def VirtualPoly.mulByMle (heap : ℕ → Mle F) (vp : VirtualPoly F) (a : ℕ) (c : F) :
    Option (VirtualPoly F) :=
  if (heap a).numVars = vp.maxNumVars then
    let (vp', i) := vp.intern a
    some { vp' with
      products := vp'.products.map fun p => (p.1 * c, p.2 ++ [i])
      maxDegree := vp'.maxDegree + 1 }
  else none

/-- `merge`, virtual_poly.rs:224-235. A product index out of range panics. -/
def VirtualPoly.merge (heap : ℕ → Mle F) (vp other : VirtualPoly F) : Option (VirtualPoly F) :=
  other.products.foldlM
    (fun vp p => do
      let cur ← p.2.mapM fun i => other.flattened[i]?
      vp.addMleList heap cur p.1) vp

/-- `evaluate`, virtual_poly.rs:239-264. -/
def VirtualPoly.evaluate (heap : ℕ → Mle F) (vp : VirtualPoly F) (point : List F) : Option F :=
  if vp.maxNumVars = point.length then do
    let evals ← vp.flattened.mapM fun a =>
      if (heap a).numVars ≤ point.length then (heap a).evaluate (point.take (heap a).numVars) else none
    let vals ← vp.products.mapM fun p => do
      let fs ← p.2.mapM fun i => evals[i]?
      some (fs.prod * p.1)
    some vals.sum
  else none

end Model
