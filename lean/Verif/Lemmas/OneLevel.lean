import Verif.Lemmas.RsCode
import Verif.Model.Basefold

/-! Pairs of neighbours: the one-level steps of the opening's sumcheck. -/

open Spec Model

namespace Lemmas

variable {F : Type} [Field F]

theorem chunks_two_pairs (m : ℕ) (v : List F) (hl : v.length = 2 * m) :
    chunks 2 v = (List.range m).map fun i => [v.getD (2 * i) 0, v.getD (2 * i + 1) 0] := by
  rw [chunks_eq 2 m (by omega) v hl]
  apply List.map_congr_left
  intro i hi
  have hi' := List.mem_range.mp hi
  apply list_ext_getD 0
  · simp; omega
  · intro j hj
    have hj2 : j < 2 := by simp at hj; omega
    rw [getD_take _ _ _ _ hj2, getD_drop]
    rcases j with _ | _ | j
    · simp
    · simp
    · omega

theorem oneLevelInterp_eq (m : ℕ) (v : List F) (hl : v.length = 2 * m) :
    oneLevelInterp v = some (((List.range m).map fun i => [v.getD (2 * i) 0, v.getD (2 * i + 1) 0 - v.getD (2 * i) 0]).flatten) := by
  unfold oneLevelInterp
  rw [if_neg (by omega), chunks_two_pairs m v hl, List.mapM_map,
    mapM_some' (pairDiff ∘ _) (fun i => [v.getD (2 * i) 0, v.getD (2 * i + 1) 0 - v.getD (2 * i) 0]) _ (fun i _ => rfl)]
  rfl

theorem oneLevelEval_eq (m : ℕ) (v : List F) (hl : v.length = 2 * m) (c : F) :
    oneLevelEval v c = some ((List.range m).map fun i => v.getD (2 * i) 0 + c * v.getD (2 * i + 1) 0) := by
  unfold oneLevelEval
  rw [chunks_two_pairs m v hl, List.mapM_map]
  exact mapM_some' _ _ _ (fun i _ => rfl)

theorem oneLevelInterp_spec (m : ℕ) (v : List F) (hl : v.length = 2 * m) :
    ∃ w, oneLevelInterp v = some w ∧ w.length = 2 * m ∧ ∀ i, i < m →
      w.getD (2 * i) 0 = v.getD (2 * i) 0 ∧ w.getD (2 * i + 1) 0 = v.getD (2 * i + 1) 0 - v.getD (2 * i) 0 := by
  refine ⟨_, oneLevelInterp_eq m v hl, ?_, ?_⟩
  · rw [length_flatten' 2 _ (by simp)]; simp [mul_comm]
  · intro i hi
    have h := fun r hr => getD_flatten 2 ((List.range m).map fun i => [v.getD (2 * i) 0, v.getD (2 * i + 1) 0 - v.getD (2 * i) 0]) (by simp) i r
      (0 : F) (by simpa using hi) hr
    have h0 := h 0 (by omega)
    have h1 := h 1 (by omega)
    constructor
    · rw [show 2 * i = i * 2 + 0 by ring, h0]
      simp [hi, List.getD_eq_getElem?_getD, mul_comm]
    · rw [show 2 * i + 1 = i * 2 + 1 by ring, h1]
      simp [hi, List.getD_eq_getElem?_getD, mul_comm]

end Lemmas
