import Verif.Model.Tensor
import Mathlib.Data.List.GetD

/-!
C34, the shape of a broadcast.
-/

namespace Props
open Model

theorem compatible_spec (a b c : ℕ) : compatible a b = some c ↔ (a = b ∨ a = 1 ∨ b = 1) ∧ c = if a = 1 then b else a := by
  unfold compatible
  split
  · rename_i h; subst h; simp [eq_comm]
  split
  · rename_i h; subst h; simp [eq_comm]
  split
  · rename_i h; subst h; simp [eq_comm]
  · simp_all

theorem mapM_zip_getD (f : ℕ → ℕ → Option ℕ) : ∀ (x y s : List ℕ), x.length = y.length →
    ((x.zip y).mapM (fun ab => f ab.1 ab.2) = some s ↔ s.length = x.length ∧ ∀ i < x.length, f (x.getD i 1) (y.getD i 1) = some (s.getD i 1)) := by
  intro x
  induction x with
  | nil =>
    intro y s h
    cases s <;> simp
  | cons a x ih =>
    intro y s h
    cases y with
    | nil => simp at h
    | cons b y =>
      rw [List.zip_cons_cons, List.mapM_cons]
      simp only [Option.bind_eq_bind, Option.bind_eq_some_iff, Option.pure_def, Option.some.injEq]
      constructor
      · rintro ⟨c, hc, r, hr, rfl⟩
        obtain ⟨h1, h2⟩ := (ih y r (by simpa using h)).mp hr
        refine ⟨by simp [h1], ?_⟩
        intro i hi
        cases i with
        | zero => simpa using hc
        | succ i => simpa using h2 i (by simpa using hi)
      · rintro ⟨h1, h2⟩
        cases s with
        | nil => simp at h1
        | cons c r =>
          refine ⟨c, by simpa using h2 0 (by simp), r, (ih y r (by simpa using h)).mpr ⟨by simpa using h1, fun i hi => by simpa using h2 (i + 1) (by simpa using hi)⟩, rfl⟩

theorem getD_reverse (l : List ℕ) (i : ℕ) (h : i < l.length) : l.reverse.getD i 1 = l.getD (l.length - 1 - i) 1 := by
  rw [List.getD_eq_getElem _ _ (by simpa using h), List.getD_eq_getElem _ _ (by omega), List.getElem_reverse]

theorem getD_reverse_pad (l : List ℕ) (k i : ℕ) : (List.replicate k 1 ++ l).reverse.getD i 1 = l.reverse.getD i 1 := by
  rw [List.reverse_append, List.reverse_replicate]
  by_cases h : i < l.reverse.length
  · rw [List.getD_append _ _ _ _ h]
  · rw [List.getD_append_right _ _ _ _ (by omega), List.getD_eq_default l.reverse _ (by omega)]
    by_cases h' : i - l.reverse.length < k
    · rw [List.getD_eq_getElem _ _ (by simpa using h'), List.getElem_replicate]
    · rw [List.getD_eq_default _ _ (by simp at h' ⊢; omega)]

/-- C34, the shape two tensors are broadcast to. It exists if and only if, counting dimensions from the last one and taking missing dimensions to be one, the dimensions of the two shapes are equal or one
of them is one; it has the rank of the longer shape and the dimension that is not one. -/
theorem C34_broadcast_shape (a b s : List ℕ) :
    broadcastShape a b = some s ↔ s.length = max a.length b.length ∧ ∀ i < s.length,
      (a.reverse.getD i 1 = b.reverse.getD i 1 ∨ a.reverse.getD i 1 = 1 ∨ b.reverse.getD i 1 = 1) ∧
      s.reverse.getD i 1 = if a.reverse.getD i 1 = 1 then b.reverse.getD i 1 else a.reverse.getD i 1 := by
  have main : ∀ (x y : List ℕ), x.length = y.length → (((x.zip y).mapM fun ab => compatible ab.1 ab.2) = some s ↔ s.length = x.length ∧ ∀ i < s.length,
      (x.reverse.getD i 1 = y.reverse.getD i 1 ∨ x.reverse.getD i 1 = 1 ∨ y.reverse.getD i 1 = 1) ∧
      s.reverse.getD i 1 = if x.reverse.getD i 1 = 1 then y.reverse.getD i 1 else x.reverse.getD i 1) := by
    intro x y hxy
    rw [mapM_zip_getD compatible x y s hxy]
    apply and_congr_right
    intro hs
    constructor
    · intro h i hi
      rw [getD_reverse x i (by omega), getD_reverse y i (by omega), getD_reverse s i hi]
      have := (compatible_spec _ _ _).mp (h (x.length - 1 - i) (by omega))
      rw [show y.length - 1 - i = x.length - 1 - i by omega, show s.length - 1 - i = x.length - 1 - i by omega]
      exact this
    · intro h i hi
      have := h (x.length - 1 - i) (by omega)
      rw [getD_reverse x _ (by omega), getD_reverse y _ (by omega), getD_reverse s _ (by omega), show y.length - 1 - (x.length - 1 - i) = i by omega,
        show x.length - 1 - (x.length - 1 - i) = i by omega, show s.length - 1 - (x.length - 1 - i) = i by omega] at this
      exact (compatible_spec _ _ _).mpr this
  have swap : ∀ x y : List ℕ, (x.zip y).mapM (fun ba => compatible ba.2 ba.1) = (y.zip x).mapM fun ab => compatible ab.1 ab.2 := by
    intro x
    induction x with
    | nil => intro y; simp
    | cons u x ih => intro y; cases y with
      | nil => simp
      | cons v y => simp only [List.zip_cons_cons, List.mapM_cons, ih y]
  unfold broadcastShape
  split
  · rename_i h
    rw [swap, main _ _ (by simp; omega)]
    simp only [getD_reverse_pad]
    rw [List.length_append, List.length_replicate, max_eq_right h, Nat.sub_add_cancel h]
  · rename_i h
    rw [main _ _ (by simp; omega)]
    simp only [getD_reverse_pad]
    rw [max_eq_left (by omega)]

/-- C34: the shape does not depend on the order of the two tensors. -/
theorem C34_broadcast_symmetric (a b : List ℕ) : broadcastShape a b = broadcastShape b a := by
  apply Option.ext
  intro s
  rw [C34_broadcast_shape, C34_broadcast_shape, max_comm]
  apply and_congr_right
  intro _
  apply forall_congr'
  intro i
  apply imp_congr_right
  intro _
  generalize a.reverse.getD i 1 = x
  generalize b.reverse.getD i 1 = y
  generalize s.reverse.getD i 1 = z
  constructor <;> rintro ⟨h1, h2⟩ <;> refine ⟨by tauto, ?_⟩ <;> split_ifs at h2 ⊢ <;> omega

example : broadcastShape [4, 1] [2, 1, 3] = some [2, 4, 3] ∧ broadcastShape [4, 2] [2, 1, 3] = none := by decide

end Props
