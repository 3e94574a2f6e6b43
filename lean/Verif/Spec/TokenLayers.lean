import Verif.Spec.Layers

/-!
What the first and the last layers of a language model compute, independent of the model. Matrices are row-major lists.
-/

namespace Spec

/-- Row `i` is row `idx[i]` of the table `W`, whose rows have `emb` entries. -/
def embeddingRows {α : Type} [Zero α] (emb : ℕ) (W : List α) (idx : List ℕ) : List α :=
  (List.range (idx.length * emb)).map fun o => W.getD (idx.getD (o / emb) 0 * emb + o % emb) 0

/-- Row `i` has a one in column `idx[i]` and zeros elsewhere; there are `cols` columns. -/
def oneHot {α : Type} [Zero α] [One α] (cols : ℕ) (idx : List ℕ) : List α :=
  (List.range (idx.length * cols)).map fun o => if idx.getD (o / cols) 0 = o % cols then 1 else 0

/-- Entry `i` is the entry of row `i` of `x` in column `idx[i]`. -/
def pickedEntries {α : Type} [Zero α] (cols : ℕ) (x : List α) (idx : List ℕ) : List α :=
  (List.range idx.length).map fun i => x.getD (i * cols + idx.getD i 0) 0

/-- Entry `(i, j)` is `m[i] - x[i, j]`. -/
def rowGaps {α : Type} [Zero α] [Sub α] (cols : ℕ) (m x : List α) : List α :=
  (List.range (m.length * cols)).map fun o => m.getD (o / cols) 0 - x.getD o 0

end Spec
