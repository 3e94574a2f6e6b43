import Verif.Model.Tensor
import Verif.Spec.Tensor
import Verif.Lemmas.Slices
import Mathlib.Data.List.Forall2

namespace Lemmas

open Model Spec

theorem inRange_nil (c : List ℕ) : InRange [] c ↔ c = [] := by
  unfold InRange
  constructor
  · intro h; cases h; rfl
  · rintro rfl; exact .nil

theorem inRange_cons (d : ℕ) (ds c : List ℕ) :
    InRange (d :: ds) c ↔ ∃ x cs, c = x :: cs ∧ x < d ∧ InRange ds cs := by
  unfold InRange
  constructor
  · intro h
    cases h with
    | cons h1 h2 => exact ⟨_, _, rfl, h1, h2⟩
  · rintro ⟨x, cs, rfl, h1, h2⟩
    exact .cons h1 h2

theorem inRange_cons_cons (d : ℕ) (ds : List ℕ) (x : ℕ) (cs : List ℕ) :
    InRange (d :: ds) (x :: cs) ↔ x < d ∧ InRange ds cs := by
  unfold InRange; exact List.forall₂_cons

theorem inRange_length {shape c : List ℕ} (h : InRange shape c) : c.length = shape.length := List.Forall₂.length_eq h

theorem flat_lt : ∀ {shape c : List ℕ}, InRange shape c → flat shape c < shape.prod := by
  intro shape
  induction shape with
  | nil => intro c h; rw [(inRange_nil c).1 h]; simp [flat]
  | cons d ds ih =>
    intro c h
    obtain ⟨x, cs, rfl, hx, hcs⟩ := (inRange_cons d ds c).1 h
    have := ih hcs
    rw [flat, List.prod_cons]
    calc x * ds.prod + flat ds cs < x * ds.prod + ds.prod := by omega
      _ = (x + 1) * ds.prod := by ring
      _ ≤ d * ds.prod := Nat.mul_le_mul_right _ hx

theorem flat_inj : ∀ {shape c c' : List ℕ}, InRange shape c → InRange shape c' → flat shape c = flat shape c' → c = c' := by
  intro shape
  induction shape with
  | nil => intro c c' h h' _; rw [(inRange_nil c).1 h, (inRange_nil c').1 h']
  | cons d ds ih =>
    intro c c' h h' he
    obtain ⟨x, cs, rfl, hx, hcs⟩ := (inRange_cons d ds c).1 h
    obtain ⟨y, cs', rfl, hy, hcs'⟩ := (inRange_cons d ds c').1 h'
    have h1 := flat_lt hcs
    have h2 := flat_lt hcs'
    rw [flat, flat] at he
    have hp : 0 < ds.prod := by omega
    have hdx : (x * ds.prod + flat ds cs) / ds.prod = x := by
      rw [mul_comm, Nat.mul_add_div hp, Nat.div_eq_of_lt h1, add_zero]
    have hdy : (y * ds.prod + flat ds cs') / ds.prod = y := by
      rw [mul_comm, Nat.mul_add_div hp, Nat.div_eq_of_lt h2, add_zero]
    have hxy : x = y := by rw [← hdx, ← hdy, he]
    subst hxy
    rw [ih hcs hcs' (by omega)]

theorem flat_surj : ∀ {shape : List ℕ} {i : ℕ}, i < shape.prod → ∃ c, InRange shape c ∧ flat shape c = i := by
  intro shape
  induction shape with
  | nil => intro i hi; exact ⟨[], (inRange_nil _).2 rfl, by simp at hi; rw [hi]; rfl⟩
  | cons d ds ih =>
    intro i hi
    rw [List.prod_cons] at hi
    have hp : 0 < ds.prod := by
      rcases Nat.eq_zero_or_pos ds.prod with h | h
      · rw [h] at hi; omega
      · exact h
    obtain ⟨cs, h1, h2⟩ := ih (Nat.mod_lt i hp)
    refine ⟨i / ds.prod :: cs, (inRange_cons_cons _ _ _ _).2 ⟨(Nat.div_lt_iff_lt_mul hp).2 hi, h1⟩, ?_⟩
    rw [flat, h2, mul_comm]
    exact Nat.div_add_mod i ds.prod

theorem flat_snoc : ∀ (ds cs : List ℕ) (d c : ℕ), ds.length = cs.length →
    flat (ds ++ [d]) (cs ++ [c]) = flat ds cs * d + c := by
  intro ds
  induction ds with
  | nil => intro cs d c h; cases cs <;> simp_all [flat]
  | cons d0 ds ih =>
    intro cs d c h
    cases cs with
    | nil => simp at h
    | cons c0 cs =>
      simp only [List.cons_append, flat]
      rw [ih cs d c (by simpa using h)]
      simp only [List.prod_append, List.prod_cons, List.prod_nil]
      ring

/-- Position in terms of the reversed lists. -/
def flatRev : List ℕ → List ℕ → ℕ
  | d :: ds, c :: cs => c + d * flatRev ds cs
  | _, _ => 0

theorem flat_reverse : ∀ (ds cs : List ℕ), ds.length = cs.length → flat ds.reverse cs.reverse = flatRev ds cs := by
  intro ds
  induction ds with
  | nil => intro cs _; cases cs <;> rfl
  | cons d ds ih =>
    intro cs h
    cases cs with
    | nil => simp at h
    | cons c cs =>
      rw [List.reverse_cons, List.reverse_cons, flat_snoc _ _ _ _ (by simpa using h), ih cs (by simpa using h), flatRev]
      ring

theorem flat_eq_rev (ds cs : List ℕ) (h : ds.length = cs.length) : flat ds cs = flatRev ds.reverse cs.reverse := by
  rw [← flat_reverse _ _ (by simpa using h), List.reverse_reverse, List.reverse_reverse]

theorem length_stridesRev : ∀ (ds : List ℕ) (s : ℕ), (stridesRev s ds).length = ds.length := by
  intro ds
  induction ds with
  | nil => intro s; rfl
  | cons d ds ih => intro s; rw [stridesRev, List.length_cons, ih, List.length_cons]

theorem sum_stridesRev : ∀ (ds cs : List ℕ) (s : ℕ), ds.length = cs.length →
    ((cs.zip (stridesRev s ds)).map fun x => x.1 * x.2).sum = s * flatRev ds cs := by
  intro ds
  induction ds with
  | nil => intro cs s h; cases cs <;> simp_all [stridesRev, flatRev]
  | cons d ds ih =>
    intro cs s h
    cases cs with
    | nil => simp at h
    | cons c cs =>
      rw [stridesRev, List.zip_cons_cons, List.map_cons, List.sum_cons, ih cs (s * d) (by simpa using h), flatRev]
      ring

theorem length_strides (shape : List ℕ) : (strides shape).length = shape.length := by
  simp [strides, length_stridesRev]

theorem sum_strides (shape c : List ℕ) (h : shape.length = c.length) :
    ((c.zip (strides shape)).map fun x => x.1 * x.2).sum = flat shape c := by
  have h1 := sum_stridesRev shape.reverse c.reverse 1 (by simpa using h)
  rw [one_mul, ← flat_eq_rev _ _ h] at h1
  rw [← h1, ← List.sum_reverse, ← List.map_reverse]
  congr 2
  simp only [List.zip]
  rw [List.reverse_zipWith (by rw [length_strides]; exact h.symm), strides, List.reverse_reverse]

theorem getIdxLoop_eq : ∀ (ss as : List ℕ) (f m : ℕ), ss.length = as.length →
    getIdxLoop f m (as.zip ss) = if List.Forall₂ (fun x d => x < d) as ss then some (f + m * flatRev ss as) else none := by
  intro ss
  induction ss with
  | nil => intro as f m h; cases as <;> simp_all [getIdxLoop, flatRev]
  | cons s ss ih =>
    intro as f m h
    cases as with
    | nil => simp at h
    | cons a as =>
      rw [List.zip_cons_cons, getIdxLoop, ih as _ _ (by simpa using h)]
      simp only [List.forall₂_cons, flatRev]
      by_cases h1 : a < s
      · by_cases h2 : List.Forall₂ (fun x d => x < d) as ss
        · simp [h1, h2]; ring
        · simp [h1, h2]
      · simp [h1]

/-- `get_idx`: the position, if all indices but the last are in range. -/
theorem getIdx_eq (ds : List ℕ) (d : ℕ) (cs : List ℕ) (c : ℕ) (h : ds.length = cs.length) :
    getIdx (ds ++ [d]) (cs ++ [c]) = if InRange ds cs then some (flat (ds ++ [d]) (cs ++ [c])) else none := by
  unfold getIdx
  rw [if_pos (by simp [h]), List.reverse_append, List.reverse_append]
  show getIdxLoop c d (cs.reverse.zip ds.reverse) = _
  rw [getIdxLoop_eq _ _ _ _ (by simpa using h), flat_snoc _ _ _ _ h, ← flat_eq_rev _ _ h]
  have : List.Forall₂ (fun x d => x < d) cs.reverse ds.reverse ↔ InRange ds cs := List.forall₂_reverse_iff
  simp only [this]
  congr 2
  ring

theorem snoc_of_length {α : Type} (l : List α) (h : 0 < l.length) : ∃ as a, l = as ++ [a] :=
  ⟨l.dropLast, l.getLast (by intro h'; rw [h'] at h; simp at h), (List.dropLast_append_getLast _).symm⟩

theorem inRange_snoc (ds cs : List ℕ) (d c : ℕ) (h : ds.length = cs.length) :
    InRange (ds ++ [d]) (cs ++ [c]) ↔ InRange ds cs ∧ c < d := by
  unfold InRange
  constructor
  · intro h1
    have h2 := List.forall₂_reverse_iff.2 h1
    rw [List.reverse_append, List.reverse_append] at h2
    simp only [List.reverse_cons, List.reverse_nil, List.nil_append, List.singleton_append, List.forall₂_cons] at h2
    exact ⟨List.forall₂_reverse_iff.1 h2.2, h2.1⟩
  · rintro ⟨h1, h2⟩
    exact List.rel_append h1 (.cons h2 .nil)

/-- Two lists of the right length are equal if they agree at all coordinates. -/
theorem ext_coords {α : Type} (shape : List ℕ) (z : α) (a b : List α) (ha : a.length = shape.prod) (hb : b.length = shape.prod)
    (h : ∀ c, InRange shape c → a.getD (flat shape c) z = b.getD (flat shape c) z) : a = b := by
  apply List.ext_getElem (ha.trans hb.symm)
  intro i h1 h2
  obtain ⟨c, hc, rfl⟩ := flat_surj (ha ▸ h1)
  have := h c hc
  rwa [List.getD_eq_getElem _ _ h1, List.getD_eq_getElem _ _ h2] at this

end Lemmas
