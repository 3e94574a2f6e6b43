import Verif.Model.Slices
import Mathlib.Algebra.BigOperators.Group.List.Basic
import Mathlib.Data.List.GetD
import Mathlib.Tactic.Ring

namespace Lemmas

open Model

theorem chunks_eq {α : Type} (k n : ℕ) (hk : 0 < k) (l : List α) (h : l.length = k * n) :
    chunks k l = (List.range n).map fun i => (l.drop (k * i)).take k := by
  unfold chunks
  congr 2
  rw [h]
  have : k * n + k - 1 = (k - 1) + k * n := by omega
  rw [this, Nat.add_mul_div_left _ _ hk, Nat.div_eq_of_lt (by omega), zero_add]

theorem drop_take_flatten {α : Type} (k : ℕ) : ∀ (groups : List (List α)), (∀ g ∈ groups, g.length = k) → ∀ i,
    ∀ h : i < groups.length, (groups.flatten.drop (k * i)).take k = groups[i] := by
  intro groups
  induction groups with
  | nil => intro _ i h; simp at h
  | cons g gs ih =>
    intro hk i hi
    have hg := hk g (by simp)
    cases i with
    | zero => simp [← hg]
    | succ i =>
      rw [List.flatten_cons, show k * (i + 1) = g.length + k * i by rw [hg]; ring, ← List.drop_drop, List.drop_left]
      simpa using ih (fun x hx => hk x (by simp [hx])) i (by simpa using hi)

theorem chunks_flatten {α : Type} (k : ℕ) (hk : 0 < k) (groups : List (List α)) (h : ∀ g ∈ groups, g.length = k) :
    chunks k groups.flatten = groups := by
  have hl : groups.flatten.length = k * groups.length := by
    rw [List.length_flatten, List.eq_replicate_of_mem (a := k) (l := groups.map List.length) (by simpa using h)]
    simp [mul_comm]
  rw [chunks_eq k groups.length hk _ hl]
  apply List.ext_getElem
  · simp
  · intro i h1 h2
    simp [drop_take_flatten k groups h i h2]

theorem mapM_some' {α β : Type} (f : α → Option β) (g : α → β) (l : List α) (h : ∀ x ∈ l, f x = some (g x)) :
    l.mapM f = some (l.map g) := by
  induction l with
  | nil => rfl
  | cons a as ih =>
    rw [List.mapM_cons, h a (by simp), ih (fun x hx => h x (by simp [hx]))]
    rfl

theorem le_nextPow2 (n : ℕ) : n ≤ nextPow2 n := Nat.le_pow_clog (by omega) n

theorem nextPow2_pos (n : ℕ) : 0 < nextPow2 n := Nat.two_pow_pos _

theorem nextPow2_pow (k : ℕ) : nextPow2 (2 ^ k) = 2 ^ k := by rw [nextPow2, Nat.clog_pow 2 k (by omega)]

theorem nextPow2_min (n k : ℕ) (h : n ≤ 2 ^ k) : nextPow2 n ≤ 2 ^ k :=
  Nat.pow_le_pow_right (by omega) (Nat.clog_le_of_le_pow h)

theorem length_resize {α : Type} (n : ℕ) (x : α) (l : List α) : (resize n x l).length = n := by
  simp [resize]; omega

theorem getD_resize {α : Type} (n : ℕ) (x : α) (l : List α) (i : ℕ) :
    (resize n x l).getD i x = if i < n then l.getD i x else x := by
  unfold resize
  simp only [List.getD_eq_getElem?_getD, List.getElem?_append, List.length_take, List.getElem?_take, List.getElem?_replicate]
  by_cases h1 : i < n
  · by_cases h2 : i < l.length
    · simp [h1, h2]
    · have h3 : l[i]? = none := List.getElem?_eq_none (by omega)
      have h4 : ¬ i < min n l.length := by omega
      rw [if_neg h4, if_pos h1, h3]
      split <;> rfl
  · have h4 : ¬ i < min n l.length := by omega
    have h5 : ¬ i - min n l.length < n - l.length := by omega
    simp [h1, h4, h5]

theorem getD_flatten {α : Type} (k : ℕ) (groups : List (List α)) (hk : ∀ g ∈ groups, g.length = k) (i r : ℕ) (z : α)
    (hi : i < groups.length) (hr : r < k) : groups.flatten.getD (i * k + r) z = groups[i].getD r z := by
  rw [← drop_take_flatten k groups hk i hi]
  simp only [List.getD_eq_getElem?_getD, List.getElem?_take, if_pos hr, List.getElem?_drop]
  rw [mul_comm]

end Lemmas
