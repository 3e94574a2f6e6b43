import Verif.Model.LookupProvers
import Verif.Lemmas.LookupProvers
import Verif.Props.Tensor
import Verif.Lemmas.Slices

/-!
Helper lemmas: the vectors computed for the proof of max pooling.
-/

namespace Lemmas

open Model Spec

theorem interleave_range {α : Type} (f h : ℕ → α) : ∀ (M : ℕ) (s : ℕ),
    interleave ((List.range M).map fun m => f (s + m)) ((List.range M).map fun m => h (s + m))
      = (List.range (2 * M)).map fun m => if m % 2 = 0 then f (s + m / 2) else h (s + m / 2) := by
  intro M
  induction M with
  | zero => intro s; rfl
  | succ M ih =>
    intro s
    rw [List.range_succ_eq_map, show 2 * (M + 1) = 2 * M + 1 + 1 by ring, List.range_succ_eq_map, List.range_succ_eq_map]
    simp only [List.map_cons, List.map_map, interleave, add_zero, Nat.zero_mod, if_true, Nat.zero_div, Function.comp_def, Nat.succ_eq_add_one, zero_add]
    have e1 : (fun x => f (s + (x + 1))) = fun m => f (s + 1 + m) := by funext x; congr 1; ring
    have e2 : (fun x => h (s + (x + 1))) = fun m => h (s + 1 + m) := by funext x; congr 1; ring
    rw [e1, e2, ih (s + 1)]
    simp only [show (1 : ℕ) % 2 = 1 by rfl, show (1 : ℕ) / 2 = 0 by rfl, one_ne_zero, if_false, add_zero, List.cons.injEq, true_and]
    apply List.map_congr_left
    intro m _
    rw [show (m + 1 + 1) % 2 = m % 2 by omega, show s + (m + 1 + 1) / 2 = s + 1 + m / 2 by omega]

theorem mergeColumns_range {α : Type} : ∀ (g M : ℕ) (f : ℕ → ℕ → α),
    mergeColumns g ((List.range (2 ^ g)).map fun j => (List.range M).map (f j)) = [(List.range (M * 2 ^ g)).map fun w => f (w % 2 ^ g) (w / 2 ^ g)] := by
  intro g
  induction g with
  | zero => intro M f; simp [mergeColumns, Nat.mod_one]
  | succ g ih =>
    intro M f
    unfold mergeColumns
    have htake : ((List.range (2 ^ (g + 1))).map fun j => (List.range M).map (f j)).take (2 ^ g) = (List.range (2 ^ g)).map fun j => (List.range M).map (f j) := by
      rw [← List.map_take, List.take_range, min_eq_left (Nat.pow_le_pow_right (by omega) (by omega))]
    have hdrop : ((List.range (2 ^ (g + 1))).map fun j => (List.range M).map (f j)).drop (2 ^ g) = (List.range (2 ^ g)).map fun j => (List.range M).map (f (2 ^ g + j)) := by
      apply List.ext_getElem
      · simp [pow_succ]; omega
      · intro i h1 h2; simp
    have hzip : List.zipWith interleave ((List.range (2 ^ g)).map fun j => (List.range M).map (f j)) ((List.range (2 ^ g)).map fun j => (List.range M).map (f (2 ^ g + j)))
        = (List.range (2 ^ g)).map fun j => (List.range (2 * M)).map fun m => if m % 2 = 0 then f j (m / 2) else f (2 ^ g + j) (m / 2) := by
      apply List.ext_getElem
      · simp
      · intro i h1 h2
        simp only [List.getElem_zipWith, List.getElem_map, List.getElem_range]
        have := interleave_range (f i) (f (2 ^ g + i)) M 0
        simpa using this
    rw [htake, hdrop, hzip, ih (2 * M) fun j m => if m % 2 = 0 then f j (m / 2) else f (2 ^ g + j) (m / 2)]
    congr 1
    rw [show 2 * M * 2 ^ g = M * 2 ^ (g + 1) by ring]
    apply List.map_congr_left
    intro w _
    have hdiv : w / 2 ^ (g + 1) = w / 2 ^ g / 2 := by rw [pow_succ, Nat.div_div_eq_div_mul]
    have hmod : w % 2 ^ (g + 1) = w % 2 ^ g + 2 ^ g * (w / 2 ^ g % 2) := by rw [pow_succ, Nat.mod_mul]
    rw [hdiv, hmod]
    rcases Nat.mod_two_eq_zero_or_one (w / 2 ^ g) with h | h
    · simp [h]
    · simp [h, add_comm]

theorem stepBy_range {α : Type} (k M : ℕ) (hk : 0 < k) (f : ℕ → α) (N : ℕ) (hN : (N + k - 1) / k = M) : stepBy k ((List.range N).map f) = (List.range M).map fun i => f (i * k) := by
  unfold stepBy
  rw [List.length_map, List.length_range, hN]
  have : ∀ i ∈ List.range M, ((List.range N).map f)[i * k]? = some (f (i * k)) := by
    intro i hi
    have hi' := List.mem_range.1 hi
    have : i * k < N := by
      by_contra hc
      push Not at hc
      have : (N + k - 1) / k ≤ i := by
        rw [← Nat.lt_succ_iff, Nat.div_lt_iff_lt_mul hk]
        simp only [Nat.succ_eq_add_one]
        rw [Nat.add_mul]
        omega
      omega
    rw [List.getElem?_map, List.getElem?_range this]
    rfl
  rw [List.filterMap_congr this]
  clear this hN
  induction (List.range M) with
  | nil => rfl
  | cons a l ih => simp [ih]

theorem list_as_range {α : Type} (z : α) (l : List α) : l = (List.range l.length).map fun i => l.getD i z := by
  apply List.ext_getElem
  · simp
  · intro i h1 h2
    simp only [List.getElem_map, List.getElem_range]
    rw [List.getD_eq_getElem _ _ h1]

theorem drop_as_range {α : Type} (z : α) (l : List α) (i : ℕ) : l.drop i = (List.range (l.length - i)).map fun m => l.getD (i + m) z := by
  apply List.ext_getElem
  · simp
  · intro j h1 h2
    simp only [List.getElem_map, List.getElem_range, List.getElem_drop]
    rw [List.getD_eq_getElem]

theorem padNextPow2_id {α : Type} (t : Tensor α) (pad : α) (hne : t.shape ≠ []) (hpow : ∀ d ∈ t.shape, ∃ k, d = 2 ^ k) (hlen : t.data.length = t.shape.prod) :
    t.padNextPow2 pad = some t := by
  have hm : t.shape.map nextPow2 = t.shape := by
    conv_rhs => rw [← List.map_id t.shape]
    apply List.map_congr_left
    intro d hd
    obtain ⟨k, rfl⟩ := hpow d hd
    exact nextPow2_pow k
  obtain ⟨out, h1, h2, h3, -⟩ := Props.C28_next_power_of_two t pad hne (fun d hd => by obtain ⟨k, rfl⟩ := hpow d hd; positivity) hlen
  rw [hm] at h1 h2 h3
  rw [h1]
  have : out = t.data := ext_coords t.shape pad out t.data h2 hlen h3
  rw [this]

/-- The position of the entry in column `c` and row `rho` of window `w`, with rows of `2^(g+1)` entries. -/
def windowIndex (g c rho w : ℕ) : ℕ := (2 * (w / 2 ^ g) + rho) * 2 ^ (g + 1) + (2 * (w % 2 ^ g) + c)

theorem poolDiff_range (g M : ℕ) (f : ℕ → ℕ → ℤ) (out : List ℤ) (hout : out.length = M * 2 ^ g) :
    poolDiff g out ((List.range (2 ^ g)).map fun j => (List.range M).map (f j)) = some ((List.range (M * 2 ^ g)).map fun w => out.getD w 0 - f (w % 2 ^ g) (w / 2 ^ g)) := by
  unfold poolDiff
  rw [mergeColumns_range]
  simp only [List.getElem?_cons_zero, Option.bind_eq_bind, Option.bind_some, Option.some.injEq]
  apply List.ext_getElem
  · simp [hout]
  · intro i h1 h2
    have hi : i < M * 2 ^ g := by simpa using h2
    simp only [List.getElem_map, List.getElem_zip, List.getElem_range]
    rw [List.getD_eq_getElem]

theorem maxpool_windows (a b g : ℕ) (X : List ℤ) (hX : X.length = [2 ^ a, 2 ^ (b + 1), 2 ^ (g + 1)].prod) :
    ∃ out, (⟨[2 ^ a, 2 ^ (b + 1), 2 ^ (g + 1)], X⟩ : Tensor ℤ).maxpool2d 2 2 = some ⟨[2 ^ a, 2 ^ b, 2 ^ g], out⟩ ∧ out.length = 2 ^ (a + b + g) ∧
      ∀ w, w < 2 ^ (a + b + g) → WindowMax (out.getD w 0)
        [X.getD (windowIndex g 0 0 w) 0, X.getD (windowIndex g 0 1 w) 0, X.getD (windowIndex g 1 0 w) 0, X.getD (windowIndex g 1 1 w) 0] := by
  have half : ∀ k, (2 ^ (k + 1) - 2) / 2 + 1 = 2 ^ k := by
    intro k
    have : 0 < 2 ^ k := by positivity
    rw [pow_succ]
    omega
  have two : ∀ k, 2 ≤ 2 ^ (k + 1) := by
    intro k
    have : 0 < 2 ^ k := by positivity
    rw [pow_succ]
    omega
  obtain ⟨out, h1, h2, h3⟩ := Props.C30_maxpool (⟨[2 ^ a, 2 ^ (b + 1), 2 ^ (g + 1)], X⟩ : Tensor ℤ) [2 ^ a] (2 ^ (b + 1)) (2 ^ (g + 1)) 2 2 rfl hX (by omega) (two b) (two g) (by omega) 0
  rw [half, half] at h1 h2 h3
  refine ⟨out, h1, by rw [h2]; simp; ring, fun w hw => ?_⟩
  have hflat : ∀ c rho, flat [2 ^ a, 2 ^ (b + 1), 2 ^ (g + 1)] ([w / 2 ^ g / 2 ^ b] ++ [w / 2 ^ g % 2 ^ b * 2 + rho, w % 2 ^ g * 2 + c]) = windowIndex g c rho w := by
    intro c rho
    simp only [flat, List.cons_append, List.nil_append, List.prod_cons, List.prod_nil, mul_one, windowIndex, add_zero]
    have := Nat.div_add_mod (w / 2 ^ g) (2 ^ b)
    generalize w / 2 ^ g % 2 ^ b = i at *
    generalize w / 2 ^ g / 2 ^ b = ch at *
    rw [← this, pow_succ]
    ring
  have hflat' : flat ([2 ^ a] ++ [2 ^ b, 2 ^ g]) ([w / 2 ^ g / 2 ^ b] ++ [w / 2 ^ g % 2 ^ b, w % 2 ^ g]) = w := by
    simp only [flat, List.cons_append, List.nil_append, List.prod_cons, List.prod_nil, mul_one, add_zero]
    have h1 := Nat.div_add_mod (w / 2 ^ g) (2 ^ b)
    have h2 := Nat.div_add_mod w (2 ^ g)
    generalize w / 2 ^ g % 2 ^ b = i at *
    generalize w / 2 ^ g / 2 ^ b = ch at *
    conv_rhs => rw [← h2, ← h1]
    ring
  have hin : InRange ([2 ^ a] ++ [2 ^ b, 2 ^ g]) ([w / 2 ^ g / 2 ^ b] ++ [w / 2 ^ g % 2 ^ b, w % 2 ^ g]) := by
    refine List.Forall₂.cons ?_ (List.Forall₂.cons (Nat.mod_lt _ (by positivity)) (List.Forall₂.cons (Nat.mod_lt _ (by positivity)) List.Forall₂.nil))
    rw [Nat.div_div_eq_div_mul, Nat.div_lt_iff_lt_mul (by positivity)]
    rw [show 2 ^ a * (2 ^ g * 2 ^ b) = 2 ^ (a + b + g) by ring]
    exact hw
  obtain ⟨h4, rho, c, hr, hc, -, h5⟩ := h3 [w / 2 ^ g / 2 ^ b] (w / 2 ^ g % 2 ^ b) (w % 2 ^ g) hin rfl
  rw [hflat'] at h4 h5
  rw [hflat] at h5
  refine ⟨?_, ?_⟩
  · rw [h5]
    interval_cases rho <;> interval_cases c <;> simp
  · have h4' : ∀ rho c, rho < 2 → c < 2 → X.getD (windowIndex g c rho w) 0 ≤ out.getD w 0 := by
      intro rho c hr hc
      have := h4 rho c hr hc
      rw [hflat] at this
      exact this
    intro x hx
    simp only [List.mem_cons, List.not_mem_nil, or_false] at hx
    rcases hx with rfl | rfl | rfl | rfl
    · exact h4' 0 0 (by omega) (by omega)
    · exact h4' 1 0 (by omega) (by omega)
    · exact h4' 0 1 (by omega) (by omega)
    · exact h4' 1 1 (by omega) (by omega)

theorem computePolys_spec (a b g : ℕ) (X : List ℤ) (hX : X.length = [2 ^ a, 2 ^ (b + 1), 2 ^ (g + 1)].prod) (out : List ℤ)
    (hmax : (⟨[2 ^ a, 2 ^ (b + 1), 2 ^ (g + 1)], X⟩ : Tensor ℤ).maxpool2d 2 2 = some ⟨[2 ^ a, 2 ^ b, 2 ^ g], out⟩) (hol : out.length = 2 ^ (a + b + g)) :
    computePolys ⟨[2 ^ a, 2 ^ (b + 1), 2 ^ (g + 1)], X⟩
      = some ([(0, 0), (0, 1), (1, 0), (1, 1)].map fun cr : ℕ × ℕ => (List.range (2 ^ (a + b + g))).map fun w => out.getD w 0 - X.getD (windowIndex g cr.1 cr.2 w) 0) := by
  have hpad1 := padNextPow2_id (⟨[2 ^ a, 2 ^ (b + 1), 2 ^ (g + 1)], X⟩ : Tensor ℤ) 0 (by simp) (by simp) hX
  have hpad2 := padNextPow2_id (⟨[2 ^ a, 2 ^ b, 2 ^ g], out⟩ : Tensor ℤ) 0 (by simp) (by simp) (by rw [hol]; simp; ring)
  have hN : X.length = 2 ^ (a + b) * (2 * 2 ^ (g + 1)) := by rw [hX]; simp; ring
  have hwpos : 0 < 2 ^ (g + 1) := by positivity
  have hfixed : ((List.range (2 * 2 ^ (g + 1))).map fun i => stepBy (2 * 2 ^ (g + 1)) (X.drop i))
      = (List.range (2 * 2 ^ (g + 1))).map fun i => (List.range (2 ^ (a + b))).map fun m => X.getD (i + m * (2 * 2 ^ (g + 1))) 0 := by
    apply List.map_congr_left
    intro i hi
    have hi' := List.mem_range.1 hi
    rw [drop_as_range 0 X i, stepBy_range _ (2 ^ (a + b)) (by omega)]
    rw [hN]
    have hp : 0 < 2 ^ (a + b) := by positivity
    generalize 2 * 2 ^ (g + 1) = K at *
    generalize 2 ^ (a + b) = M at *
    rw [Nat.div_eq_iff (by omega)]
    constructor
    · have : M * K ≥ K := Nat.le_mul_of_pos_left K hp
      omega
    · have : M * K ≥ K := Nat.le_mul_of_pos_left K hp
      omega
  have hchunk : ∀ c : ℕ, c < 2 → chunks (2 ^ (g + 1) / 2) (stepBy 2 (((List.range (2 * 2 ^ (g + 1))).map fun i => stepBy (2 * 2 ^ (g + 1)) (X.drop i)).drop c))
      = [0, 1].map fun rho => (List.range (2 ^ g)).map fun j => (List.range (2 ^ (a + b))).map fun m => X.getD (rho * 2 ^ (g + 1) + (2 * j + c) + m * (2 * 2 ^ (g + 1))) 0 := by
    intro c hc
    rw [hfixed, drop_as_range [] _ c, stepBy_range 2 (2 ^ (g + 1)) (by omega) _ _ (by simp only [List.length_map, List.length_range]; omega)]
    have hhalf : 2 ^ (g + 1) / 2 = 2 ^ g := by rw [pow_succ]; omega
    rw [hhalf]
    have hrange : ((List.range (2 ^ (g + 1))).map fun i => ((List.range (2 * 2 ^ (g + 1))).map fun i => (List.range (2 ^ (a + b))).map fun m => X.getD (i + m * (2 * 2 ^ (g + 1))) 0).getD (c + i * 2) [])
        = ([0, 1].map fun rho => (List.range (2 ^ g)).map fun j => (List.range (2 ^ (a + b))).map fun m => X.getD (rho * 2 ^ (g + 1) + (2 * j + c) + m * (2 * 2 ^ (g + 1))) 0).flatten := by
      have hsplit : List.range (2 ^ (g + 1)) = List.range (2 ^ g) ++ (List.range (2 ^ g)).map fun j => 2 ^ g + j := by
        rw [pow_succ, mul_two, List.range_add]
      rw [hsplit, List.map_append, List.map_map]
      simp only [List.map_cons, List.map_nil, List.flatten_cons, List.flatten_nil, List.append_nil, Function.comp_def]
      congr 1
      · apply List.map_congr_left
        intro j hj
        have hj' := List.mem_range.1 hj
        rw [List.getD_eq_getElem _ _ (by simp only [List.length_map, List.length_range, pow_succ]; omega)]
        simp only [List.getElem_map, List.getElem_range]
        apply List.map_congr_left
        intro m _
        congr 1
        ring
      · apply List.map_congr_left
        intro j hj
        have hj' := List.mem_range.1 hj
        rw [List.getD_eq_getElem _ _ (by simp only [List.length_map, List.length_range, pow_succ]; omega)]
        simp only [List.getElem_map, List.getElem_range]
        apply List.map_congr_left
        intro m _
        congr 1
        rw [pow_succ]
        ring
    rw [hrange]
    exact chunks_flatten (2 ^ g) (by positivity) _ (by simp)
  have heven := hchunk 0 (by omega)
  have hodd := hchunk 1 (by omega)
  rw [List.drop_zero] at heven
  have hdiff : ∀ c rho, poolDiff g out ((List.range (2 ^ g)).map fun j => (List.range (2 ^ (a + b))).map fun m => X.getD (rho * 2 ^ (g + 1) + (2 * j + c) + m * (2 * 2 ^ (g + 1))) 0)
      = some ((List.range (2 ^ (a + b + g))).map fun w => out.getD w 0 - X.getD (windowIndex g c rho w) 0) := by
    intro c rho
    rw [poolDiff_range g (2 ^ (a + b)) (fun j m => X.getD (rho * 2 ^ (g + 1) + (2 * j + c) + m * (2 * 2 ^ (g + 1))) 0) out (by rw [hol]; ring)]
    rw [show 2 ^ (a + b) * 2 ^ g = 2 ^ (a + b + g) by ring]
    congr 1
    apply List.map_congr_left
    intro w _
    congr 2
    unfold windowIndex
    ring
  unfold computePolys
  simp only [hpad1, hmax, hpad2, Option.bind_eq_bind, Option.bind_some, List.getElem?_cons_succ, List.getElem?_cons_zero, ceilLog2_pow]
  have hsub : checkedSub (g + 1) 1 = some g := by simp [checkedSub]
  simp only [hsub, Option.bind_some, heven, hodd, List.map_cons, List.map_nil, List.mapM_cons, List.mapM_nil, hdiff, Option.bind_eq_bind, Option.pure_def, List.cons_append, List.nil_append]

end Lemmas
