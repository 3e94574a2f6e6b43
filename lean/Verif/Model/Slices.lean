import Mathlib.Data.List.Basic
import Mathlib.Data.Nat.Log

/-!
Library functions of Rust on slices and integers that several parts of the code use.
-/

namespace Model

/-- `slice::chunks`, for a positive chunk size. -/
def chunks {α : Type} (k : ℕ) (l : List α) : List (List α) :=
  (List.range ((l.length + k - 1) / k)).map fun i => (l.drop (k * i)).take k

/-- `usize::next_power_of_two` (without its overflow). -/
def nextPow2 (n : ℕ) : ℕ := 2 ^ Nat.clog 2 n

/-- `Vec::resize`. -/
def resize {α : Type} (n : ℕ) (x : α) (l : List α) : List α := l.take n ++ List.replicate (n - l.length) x

/-- `usize` subtraction, which panics on underflow (with overflow checks). -/
def checkedSub (a b : ℕ) : Option ℕ := if b ≤ a then some (a - b) else none

/-- `slice::swap`. -/
def swap? {α : Type} (l : List α) (i j : ℕ) : Option (List α) := do
  let x ← l[i]?
  let y ← l[j]?
  some ((l.set i y).set j x)

/-- Assignment to a vector entry. -/
def set? {α : Type} (l : List α) (i : ℕ) (x : α) : Option (List α) := if i < l.length then some (l.set i x) else none

end Model
