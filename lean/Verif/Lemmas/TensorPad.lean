import Verif.Lemmas.TensorIndex

namespace Lemmas

open Model Spec

/-! ### `pad_to_shape` -/

/-- Position, in the padded tensor, of the entry at position `o`; over reversed (dimension, target) pairs. -/
def tpos : ℕ → List (ℕ × ℕ) → ℕ → ℕ
  | _, [], _ => 0
  | s, (d, T) :: rest, o => o % d * s + tpos (s * T) rest (o / d)

/-- The state of the reversed coordinates when position `o` is processed. -/
def coordRev : ℕ → List (ℕ × ℕ) → ℕ → List (ℕ × ℕ × ℕ)
  | _, [], _ => []
  | s, (d, T) :: rest, o => (o % d, d, (T - d) * s) :: coordRev (s * T) rest (o / d)

/-- The decrement of the target position. -/
def tdelta : ℕ → List (ℕ × ℕ) → ℕ → ℕ
  | _, [], _ => 0
  | s, (d, T) :: rest, o => if o % d = 0 then (T - d) * s + tdelta (s * T) rest (o / d) else 1

theorem natProd_pos : ∀ (l : List ℕ), (∀ d ∈ l, 0 < d) → 0 < l.prod := by
  intro l
  induction l with
  | nil => intro _; simp
  | cons d ds ih =>
    intro h
    rw [List.prod_cons]
    exact Nat.mul_pos (h d List.mem_cons_self) (ih fun x hx => h x (List.mem_cons_of_mem _ hx))

theorem dims_div {d o M : ℕ} (h : o < d * M) : 0 < d ∧ o / d < M := by
  have hd : 0 < d := by
    rcases Nat.eq_zero_or_pos d with h0 | h0
    · rw [h0] at h; omega
    · exact h0
  exact ⟨hd, (Nat.div_lt_iff_lt_mul hd).2 (by rwa [mul_comm] at h)⟩

theorem pred_of_mod_zero {d o : ℕ} (hd : 0 < d) (ho : 0 < o) (h : o % d = 0) :
    (o - 1) % d = d - 1 ∧ (o - 1) / d = o / d - 1 ∧ 0 < o / d := by
  obtain ⟨q, rfl⟩ := Nat.dvd_of_mod_eq_zero h
  have hq : 0 < q := Nat.pos_of_mul_pos_left ho |> fun _ => by
    rcases Nat.eq_zero_or_pos q with h0 | h0
    · rw [h0] at ho; omega
    · exact h0
  obtain ⟨q', rfl⟩ : ∃ q', q = q' + 1 := ⟨q - 1, by omega⟩
  have he : d * (q' + 1) - 1 = d * q' + (d - 1) := by rw [Nat.mul_add]; omega
  rw [he, Nat.mul_add_mod, Nat.mod_eq_of_lt (by omega), Nat.mul_add_div hd, Nat.div_eq_of_lt (by omega : d - 1 < d),
    Nat.mul_div_cancel_left _ hd]
  omega

theorem pred_of_mod_pos {d o : ℕ} (h : o % d ≠ 0) : (o - 1) % d = o % d - 1 ∧ (o - 1) / d = o / d := by
  rcases Nat.eq_zero_or_pos d with h0 | hd
  · subst h0; simp
  have h1 := Nat.div_add_mod o d
  have h2 := Nat.mod_lt o hd
  have he : o - 1 = d * (o / d) + (o % d - 1) := by omega
  constructor
  · conv_lhs => rw [he]
    rw [Nat.mul_add_mod, Nat.mod_eq_of_lt (by omega)]
  · conv_lhs => rw [he]
    rw [Nat.mul_add_div hd, Nat.div_eq_of_lt (by omega : o % d - 1 < d), add_zero]

theorem padDecr_eq : ∀ (rest : List (ℕ × ℕ)) (s o target : ℕ), 0 < o → o < (rest.map (·.1)).prod →
    tdelta s rest o ≤ target → padDecr (coordRev s rest o) target = some (coordRev s rest (o - 1), target - tdelta s rest o) := by
  intro rest
  induction rest with
  | nil => intro s o target h1 h2 _; simp at h2; omega
  | cons dT rest ih =>
    intro s o target h1 h2 h3
    obtain ⟨d, T⟩ := dT
    rw [List.map_cons, List.prod_cons] at h2
    replace h2 : o < d * (rest.map (·.1)).prod := h2
    obtain ⟨hd, h4⟩ := dims_div h2
    rw [coordRev, padDecr]
    by_cases hz : o % d = 0
    · obtain ⟨g1, g2, g3⟩ := pred_of_mod_zero hd h1 hz
      rw [tdelta, if_pos hz] at h3 ⊢
      rw [if_pos hz, checkedSub, if_pos (show 1 ≤ d from hd), Option.bind_eq_bind, Option.bind_some, checkedSub, if_pos (by omega),
        Option.bind_eq_bind, Option.bind_some, ih (s * T) (o / d) _ g3 h4 (by omega)]
      simp only [Option.bind_eq_bind, Option.bind_some, coordRev, g1, g2]
      rw [Nat.sub_sub]
    · obtain ⟨g1, g2⟩ := pred_of_mod_pos hz
      rw [tdelta, if_neg hz] at h3 ⊢
      rw [if_neg hz, checkedSub, if_pos (by omega)]
      simp only [Option.bind_eq_bind, Option.bind_some, coordRev, g1, g2]

theorem tpos_step : ∀ (rest : List (ℕ × ℕ)) (s o : ℕ), (∀ p ∈ rest, p.1 ≤ p.2) → 0 < o → o < (rest.map (·.1)).prod →
    tpos s rest o + 1 = tpos s rest (o - 1) + tdelta s rest o + s := by
  intro rest
  induction rest with
  | nil => intro s o _ h1 h2; simp at h2; omega
  | cons dT rest ih =>
    intro s o hle h1 h2
    obtain ⟨d, T⟩ := dT
    rw [List.map_cons, List.prod_cons] at h2
    replace h2 : o < d * (rest.map (·.1)).prod := h2
    obtain ⟨hd, h4⟩ := dims_div h2
    have hdT : d ≤ T := hle (d, T) List.mem_cons_self
    rw [tpos, tpos, tdelta]
    by_cases hz : o % d = 0
    · obtain ⟨g1, g2, g3⟩ := pred_of_mod_zero hd h1 hz
      rw [if_pos hz, g1, g2, hz]
      have := ih (s * T) (o / d) (fun p hp => hle p (List.mem_cons_of_mem _ hp)) g3 h4
      obtain ⟨e, rfl⟩ : ∃ e, T = d + e := ⟨T - d, by omega⟩
      obtain ⟨d', rfl⟩ : ∃ d', d = d' + 1 := ⟨d - 1, by omega⟩
      rw [show d' + 1 + e - (d' + 1) = e by omega, Nat.add_sub_cancel]
      rw [zero_mul, zero_add, this]
      ring
    · obtain ⟨g1, g2⟩ := pred_of_mod_pos hz
      rw [if_neg hz, g1, g2]
      obtain ⟨e, he⟩ : ∃ e, o % d = e + 1 := ⟨o % d - 1, by omega⟩
      rw [he, Nat.add_sub_cancel]
      ring

theorem tpos_mono_one (rest : List (ℕ × ℕ)) (o : ℕ) (hle : ∀ p ∈ rest, p.1 ≤ p.2) (h1 : 0 < o)
    (h2 : o < (rest.map (·.1)).prod) : tpos 1 rest o = tpos 1 rest (o - 1) + tdelta 1 rest o := by
  have := tpos_step rest 1 o hle h1 h2
  omega

theorem tdelta_pos : ∀ (rest : List (ℕ × ℕ)) (s o : ℕ), 0 < o → o < (rest.map (·.1)).prod → 0 < tdelta s rest o := by
  intro rest
  induction rest with
  | nil => intro s o h1 h2; simp at h2; omega
  | cons dT rest ih =>
    intro s o h1 h2
    obtain ⟨d, T⟩ := dT
    rw [List.map_cons, List.prod_cons] at h2
    replace h2 : o < d * (rest.map (·.1)).prod := h2
    obtain ⟨hd, h4⟩ := dims_div h2
    rw [tdelta]
    by_cases hz : o % d = 0
    · obtain ⟨g1, g2, g3⟩ := pred_of_mod_zero hd h1 hz
      rw [if_pos hz]
      have := ih (s * T) (o / d) g3 h4
      omega
    · rw [if_neg hz]; omega

theorem tpos_strict (rest : List (ℕ × ℕ)) (hle : ∀ p ∈ rest, p.1 ≤ p.2) : ∀ (a b : ℕ), a < b →
    b < (rest.map (·.1)).prod → tpos 1 rest a < tpos 1 rest b := by
  intro a b hab
  induction b with
  | zero => omega
  | succ b ih =>
    intro hb
    have h1 := tpos_mono_one rest (b + 1) hle (by omega) hb
    have h2 := tdelta_pos rest 1 (b + 1) (by omega) hb
    rw [Nat.add_sub_cancel] at h1
    rcases Nat.lt_succ_iff_lt_or_eq.1 hab with h | h
    · have := ih h (by omega); omega
    · subst h; omega

theorem le_tpos (rest : List (ℕ × ℕ)) (hle : ∀ p ∈ rest, p.1 ≤ p.2) : ∀ (b : ℕ),
    b < (rest.map (·.1)).prod → b ≤ tpos 1 rest b := by
  intro b
  induction b with
  | zero => omega
  | succ b ih =>
    intro hb
    have h1 := tpos_strict rest hle b (b + 1) (by omega) hb
    have := ih (by omega)
    omega

theorem tpos_inj (rest : List (ℕ × ℕ)) (hle : ∀ p ∈ rest, p.1 ≤ p.2) (a b : ℕ) (ha : a < (rest.map (·.1)).prod)
    (hb : b < (rest.map (·.1)).prod) (h : tpos 1 rest a = tpos 1 rest b) : a = b := by
  rcases Nat.lt_trichotomy a b with h1 | h1 | h1
  · have := tpos_strict rest hle a b h1 hb; omega
  · exact h1
  · have := tpos_strict rest hle b a h1 ha; omega

theorem getD_swap {α : Type} (l : List α) (i j : ℕ) (z : α) (hi : i < l.length) (hj : j < l.length) :
    ∃ l', swap? l i j = some l' ∧ l'.length = l.length ∧
      ∀ p, l'.getD p z = if p = j then l.getD i z else if p = i then l.getD j z else l.getD p z := by
  have e : swap? l i j = some ((l.set i l[j]).set j l[i]) := by
    simp [swap?, List.getElem?_eq_getElem hi, List.getElem?_eq_getElem hj]
  refine ⟨_, e, by simp, ?_⟩
  intro p
  simp only [List.getD_eq_getElem?_getD, List.getElem?_set, List.length_set]
  by_cases h1 : j = p
  · subst h1; simp [hi, hj]
  · by_cases h2 : i = p
    · subst h2; simp [h1, Ne.symm h1, hi, hj]
    · simp [h1, h2, Ne.symm h1, Ne.symm h2]

/-- The main loop. -/
theorem padLoop_spec {α : Type} [Zero α] (rest : List (ℕ × ℕ)) (hle : ∀ p ∈ rest, p.1 ≤ p.2) (orig : List α) (L : ℕ)
    (hL : ∀ o, o < (rest.map (·.1)).prod → tpos 1 rest o < L) :
    ∀ (k : ℕ) (data : List α), k < (rest.map (·.1)).prod → data.length = L →
      (∀ p, p ≤ k → data.getD p 0 = orig.getD p 0) →
      (∀ j, k < j → j < (rest.map (·.1)).prod → data.getD (tpos 1 rest j) 0 = orig.getD j 0) →
      (∀ p, k < p → (∀ j, k < j → j < (rest.map (·.1)).prod → tpos 1 rest j ≠ p) → data.getD p 0 = 0) →
      ∃ out, padLoop (k + 1) (coordRev 1 rest k) (tpos 1 rest k) data = some out ∧ out.length = L ∧
        (∀ j, j < (rest.map (·.1)).prod → out.getD (tpos 1 rest j) 0 = orig.getD j 0) ∧
        (∀ p, (∀ j, j < (rest.map (·.1)).prod → tpos 1 rest j ≠ p) → out.getD p 0 = 0) := by
  intro k
  induction k with
  | zero =>
    intro data hk hlen h1 h2 h3
    have hp := le_tpos rest hle 0 hk
    obtain ⟨l', e1, e2, e3⟩ := getD_swap data 0 (tpos 1 rest 0) 0 (by have := hL 0 hk; omega) (by have := hL 0 hk; omega)
    refine ⟨l', by simp [padLoop, e1], by omega, ?_, ?_⟩
    · intro j hj
      rw [e3]
      by_cases hj0 : j = 0
      · subst hj0; rw [if_pos rfl]; exact h1 0 (le_refl _)
      · have hne : tpos 1 rest j ≠ tpos 1 rest 0 := fun h => hj0 (tpos_inj rest hle j 0 hj hk h)
        have := le_tpos rest hle j hj
        rw [if_neg hne, if_neg (by omega)]
        exact h2 j (by omega) hj
    · intro p hp'
      have hne := hp' 0 hk
      rw [e3, if_neg (Ne.symm hne)]
      by_cases hp0 : p = 0
      · subst hp0
        rw [if_pos rfl]
        exact h3 _ (by omega) fun j hj1 hj2 h => by have := tpos_inj rest hle j 0 hj2 hk h; omega
      · rw [if_neg hp0]
        exact h3 p (by omega) fun j _ hj => hp' j hj
  | succ k ih =>
    intro data hk hlen h1 h2 h3
    have hp := le_tpos rest hle (k + 1) hk
    have hlt := hL (k + 1) hk
    obtain ⟨l', e1, e2, e3⟩ := getD_swap data (k + 1) (tpos 1 rest (k + 1)) 0 (by omega) (by omega)
    have hm := tpos_mono_one rest (k + 1) hle (by omega) hk
    rw [Nat.add_sub_cancel] at hm
    have hd := padDecr_eq rest 1 (k + 1) (tpos 1 rest (k + 1)) (by omega) hk (by omega)
    rw [Nat.add_sub_cancel, show tpos 1 rest (k + 1) - tdelta 1 rest (k + 1) = tpos 1 rest k by omega] at hd
    rw [padLoop, e1]
    simp only [Option.bind_eq_bind, Option.bind_some, if_neg (Nat.succ_ne_zero k), hd]
    refine ih l' (by omega) (by omega) ?_ ?_ ?_
    · intro p hpk
      rw [e3, if_neg (by omega), if_neg (by omega)]
      exact h1 p (by omega)
    · intro j hj1 hj2
      rw [e3]
      by_cases hj0 : j = k + 1
      · subst hj0; rw [if_pos rfl]; exact h1 _ (le_refl _)
      · have hne : tpos 1 rest j ≠ tpos 1 rest (k + 1) := fun h => hj0 (tpos_inj rest hle j _ hj2 hk h)
        have := le_tpos rest hle j hj2
        rw [if_neg hne, if_neg (by omega)]
        exact h2 j (by omega) hj2
    · intro p hp1 hp'
      have hne := hp' (k + 1) (by omega) hk
      rw [e3, if_neg (Ne.symm hne)]
      by_cases hp0 : p = k + 1
      · subst hp0
        rw [if_pos rfl]
        exact h3 _ (by omega) fun j hj1 hj2 h => by have := tpos_inj rest hle j _ hj2 hk h; omega
      · rw [if_neg hp0]
        exact h3 p (by omega) fun j hj1 hj => hp' j (by omega) hj

theorem coordRev_last : ∀ (rest : List (ℕ × ℕ)) (s : ℕ), (∀ p ∈ rest, 0 < p.1) →
    coordRev s rest ((rest.map (·.1)).prod - 1)
      = (rest.zip (stridesRev s (rest.map (·.2)))).map fun x => (x.1.1 - 1, x.1.1, (x.1.2 - x.1.1) * x.2) := by
  intro rest
  induction rest with
  | nil => intro s _; rfl
  | cons dT rest ih =>
    intro s h
    obtain ⟨d, T⟩ := dT
    have hd : 0 < d := h (d, T) List.mem_cons_self
    have hM : 0 < (rest.map (·.1)).prod := natProd_pos _ (by
      intro x hx
      obtain ⟨p, hp, rfl⟩ := List.mem_map.1 hx
      exact h p (List.mem_cons_of_mem _ hp))
    obtain ⟨M, hM'⟩ : ∃ M, (rest.map (·.1)).prod = M + 1 := ⟨(rest.map (·.1)).prod - 1, by omega⟩
    have ih' := ih (s * T) fun p hp => h p (List.mem_cons_of_mem _ hp)
    have h1 : d * (M + 1) % d = 0 := Nat.mul_mod_right _ _
    obtain ⟨g1, g2, g3⟩ := pred_of_mod_zero hd ((Nat.mul_pos hd (by omega) : 0 < d * (M + 1))) h1
    rw [Nat.mul_div_cancel_left _ hd] at g2
    rw [List.map_cons, List.prod_cons, hM', coordRev, g1, g2, ← hM', ih']
    rfl

theorem tpos_flatRev : ∀ (ds Ts cs : List ℕ) (s : ℕ), List.Forall₂ (fun x d => x < d) cs ds → ds.length = Ts.length →
    tpos s (ds.zip Ts) (flatRev ds cs) = s * flatRev Ts cs := by
  intro ds
  induction ds with
  | nil => intro Ts cs s h hl; cases h; cases Ts <;> simp_all [tpos, flatRev]
  | cons d ds ih =>
    intro Ts cs s h hl
    cases h with
    | cons h1 h2 =>
      cases Ts with
      | nil => simp at hl
      | cons T Ts =>
        rename_i c cs
        rw [List.zip_cons_cons, tpos, flatRev, flatRev, Nat.add_mul_mod_self_left, Nat.mod_eq_of_lt h1,
          Nat.add_mul_div_left _ _ (by omega), Nat.div_eq_of_lt h1, zero_add, ih Ts cs _ h2 (by simpa using hl)]
        ring

theorem prod_reverse' (l : List ℕ) : l.reverse.prod = l.prod := List.prod_reverse l

theorem zip_reverse' {α β : Type} (a : List α) (b : List β) (h : a.length = b.length) :
    (a.zip b).reverse = a.reverse.zip b.reverse := by
  simp only [List.zip]; exact List.reverse_zipWith h

theorem mapM_checkedSub (l : List (ℕ × ℕ)) (h : ∀ p ∈ l, p.1 ≤ p.2) :
    l.mapM (fun on => checkedSub on.2 on.1) = some (l.map fun on => on.2 - on.1) := by
  apply mapM_some'
  intro p hp
  simp [checkedSub, h p hp]

/-- `pad_to_shape`. -/
theorem padToShape_spec {α : Type} [Zero α] (t : Tensor α) (target : List ℕ) (hlen : t.data.length = t.shape.prod)
    (hdims : List.Forall₂ (fun d T => 0 < d ∧ d ≤ T) t.shape target) :
    ∃ out, t.padToShape target = some ⟨target, out⟩ ∧ out.length = target.prod ∧
      (∀ c, InRange t.shape c → out.getD (flat target c) 0 = t.data.getD (flat t.shape c) 0) ∧
      (∀ c, InRange target c → ¬ InRange t.shape c → out.getD (flat target c) 0 = 0) := by
  have hl := hdims.length_eq
  have hle : ∀ p ∈ t.shape.zip target, 0 < p.1 ∧ p.1 ≤ p.2 := by
    intro p hp
    obtain ⟨_, h⟩ := List.forall₂_iff_zip.1 hdims
    exact h hp
  have hleR : ∀ p ∈ t.shape.reverse.zip target.reverse, 0 < p.1 ∧ p.1 ≤ p.2 := by
    rw [← zip_reverse' _ _ hl]; intro p hp; exact hle p (List.mem_reverse.1 hp)
  have hfst : (t.shape.reverse.zip target.reverse).map (·.1) = t.shape.reverse :=
    List.map_fst_zip (by simp [hl])
  have hsnd : (t.shape.reverse.zip target.reverse).map (·.2) = target.reverse :=
    List.map_snd_zip (by simp [hl])
  have hN : ((t.shape.reverse.zip target.reverse).map (·.1)).prod = t.shape.prod := by rw [hfst, prod_reverse']
  have hshape : ∀ d ∈ t.shape, 0 < d := by
    intro d hd
    obtain ⟨i, hi, rfl⟩ := List.getElem_of_mem hd
    have := hle (t.shape[i], target[i]'(by omega)) (List.mem_iff_getElem.2 ⟨i, by simp [hl] at hi ⊢; omega, by simp⟩)
    exact this.1
  have hNpos : 0 < t.shape.prod := natProd_pos _ hshape
  -- positions
  have hpos : ∀ c, InRange t.shape c → tpos 1 (t.shape.reverse.zip target.reverse) (flat t.shape c) = flat target c := by
    intro c hc
    have hcl := inRange_length hc
    rw [flat_eq_rev _ _ hcl.symm, tpos_flatRev _ _ _ _ (List.forall₂_reverse_iff.2 hc) (by simp [hl]), one_mul,
      flat_eq_rev _ _ (by omega)]
  have hT : ∀ c, InRange t.shape c → InRange target c := by
    intro c hc
    have : ∀ {s c T : List ℕ}, InRange s c → List.Forall₂ (fun d T => 0 < d ∧ d ≤ T) s T → InRange T c := by
      intro s
      induction s with
      | nil => intro c T h1 h2; cases h2; exact h1
      | cons d ds ih =>
        intro c T h1 h2
        cases h2 with
        | cons h3 h4 =>
          obtain ⟨x, cs, rfl, h5, h6⟩ := (inRange_cons _ _ _).1 h1
          exact (inRange_cons_cons _ _ _ _).2 ⟨by omega, ih h6 h4⟩
    exact this hc hdims
  have hL : ∀ o, o < t.shape.prod → tpos 1 (t.shape.reverse.zip target.reverse) o < target.prod := by
    intro o ho
    obtain ⟨c, hc, rfl⟩ := flat_surj ho
    rw [hpos c hc]
    exact flat_lt (hT c hc)
  have hprod : t.shape.prod ≤ target.prod := by
    have h1 := hL (t.shape.prod - 1) (by omega)
    have h2 := le_tpos _ (fun p hp => (hleR p hp).2) (t.shape.prod - 1) (by rw [hN]; omega)
    omega
  -- the first state
  have hcoord : (t.shape.mapM fun v => checkedSub v 1) = some (t.shape.map (· - 1)) := by
    apply mapM_some'
    intro d hd
    simp [checkedSub, Nat.succ_le_of_lt (hshape d hd)]
  have hin : InRange t.shape (t.shape.map (· - 1)) := by
    unfold InRange
    rw [List.forall₂_map_left_iff, List.forall₂_same]
    intro d hd
    have := hshape d hd
    omega
  have hstart : (((t.shape.map (· - 1)).zip (strides target)).map fun cs => cs.1 * cs.2).sum
      = tpos 1 (t.shape.reverse.zip target.reverse) (t.shape.prod - 1) := by
    rw [sum_strides _ _ (by simp [hl]), ← hpos _ hin]
    congr 1
    -- the last coordinate is the last position
    have : ∀ (s : List ℕ), (∀ d ∈ s, 0 < d) → flat s (s.map (· - 1)) = s.prod - 1 := by
      intro s
      induction s with
      | nil => intro _; rfl
      | cons d ds ih =>
        intro h
        have hd := h d List.mem_cons_self
        have hp : 0 < ds.prod := natProd_pos _ fun x hx => h x (List.mem_cons_of_mem _ hx)
        rw [List.map_cons, flat, ih fun x hx => h x (List.mem_cons_of_mem _ hx), List.prod_cons]
        obtain ⟨d', rfl⟩ : ∃ d', d = d' + 1 := ⟨d - 1, by omega⟩
        rw [Nat.add_sub_cancel, Nat.add_mul, one_mul]
        omega
    exact this _ hshape
  have hstate : ((t.shape.map (· - 1)).zip (t.shape.zip ((((t.shape.zip target).map fun on => on.2 - on.1).zip
        (strides target)).map fun ds => ds.1 * ds.2))).reverse
      = coordRev 1 (t.shape.reverse.zip target.reverse) (t.shape.prod - 1) := by
    rw [← hN, coordRev_last _ _ fun p hp => (hleR p hp).1, hsnd, ← zip_reverse' _ _ hl]
    rw [show stridesRev 1 target.reverse = (strides target).reverse by rw [strides, List.reverse_reverse]]
    rw [← zip_reverse' _ _ (by simp [length_strides, hl]), List.map_reverse]
    congr 1
    apply List.ext_getElem
    · simp [length_strides]
    · intro i h1 h2
      simp
  obtain ⟨out, e1, e2, e3, e4⟩ := padLoop_spec (t.shape.reverse.zip target.reverse) (fun p hp => (hleR p hp).2) t.data
    target.prod (by rw [hN]; exact hL) (t.shape.prod - 1) (resize target.prod 0 t.data) (by rw [hN]; omega)
    (by rw [length_resize]) (by
      intro p hp
      rw [getD_resize]
      rw [if_pos (by omega)])
    (by rw [hN]; intro j hj hj'; omega) (by
      rw [hN]
      intro p hp _
      rw [getD_resize]
      split
      · rw [List.getD_eq_default]; omega
      · rfl)
  rw [hN] at e3 e4
  refine ⟨out, ?_, e2, ?_, ?_⟩
  · unfold Tensor.padToShape
    rw [if_pos hl.symm, mapM_checkedSub _ fun p hp => (hle p hp).2]
    simp only [Option.bind_eq_bind, Option.bind_some, hcoord, hstart, hstate]
    rw [show t.shape.prod - 1 + 1 = t.shape.prod by omega] at e1
    rw [e1]
    rfl
  · intro c hc
    rw [← hpos c hc]
    exact e3 _ (flat_lt hc)
  · intro c hc hnc
    apply e4
    intro j hj h
    obtain ⟨c', hc', rfl⟩ := flat_surj hj
    rw [hpos c' hc'] at h
    exact hnc (flat_inj (hT c' hc') hc h ▸ hc')

/-! ### `recursive_pad` -/

theorem length_flatten' {α : Type} (k : ℕ) (groups : List (List α)) (hk : ∀ g ∈ groups, g.length = k) :
    groups.flatten.length = groups.length * k := by
  rw [List.length_flatten, List.eq_replicate_of_mem (a := k) (l := groups.map List.length) (by simpa using hk)]
  simp

theorem recursivePad_spec {α : Type} (pad : α) : ∀ (shape : List ℕ) (data : List α), shape ≠ [] → (∀ d ∈ shape, 0 < d) →
    data.length = shape.prod → ∃ out, recursivePad pad shape data = some out ∧ out.length = (shape.map nextPow2).prod ∧
      ∀ c, InRange (shape.map nextPow2) c →
        out.getD (flat (shape.map nextPow2) c) pad = if InRange shape c then data.getD (flat shape c) pad else pad := by
  intro shape
  induction shape with
  | nil => intro _ h; exact absurd rfl h
  | cons d ds ih =>
    intro data _ hpos hlen
    cases ds with
    | nil =>
      refine ⟨_, rfl, by simp [length_resize], ?_⟩
      intro c hc
      obtain ⟨x, cs, rfl, h1, h2⟩ := (inRange_cons _ _ _).1 hc
      rw [List.map_nil, inRange_nil] at h2
      subst h2
      simp only [List.map_cons, List.map_nil, flat, List.prod_nil, mul_one, add_zero, inRange_cons_cons, inRange_nil,
        and_true]
      rw [getD_resize, if_pos h1]
      split
      · rfl
      · rw [List.getD_eq_default]; simp at hlen; omega
    | cons d2 ds =>
      obtain ⟨P, hP⟩ : ∃ P, P = (d2 :: ds).prod := ⟨_, rfl⟩
      obtain ⟨P', hP'⟩ : ∃ P', P' = ((d2 :: ds).map nextPow2).prod := ⟨_, rfl⟩
      have hposd : ∀ x ∈ d2 :: ds, 0 < x := fun x hx => hpos x (List.mem_cons_of_mem _ hx)
      have hPpos : 0 < P := hP ▸ natProd_pos _ hposd
      have hd := hpos d List.mem_cons_self
      rw [List.prod_cons, ← hP, mul_comm] at hlen
      obtain ⟨g, hg⟩ : ∃ g : List α → List α, ∀ l, l.length = P → recursivePad pad (d2 :: ds) l = some (g l) ∧
          (g l).length = P' ∧ ∀ c, InRange ((d2 :: ds).map nextPow2) c → (g l).getD (flat ((d2 :: ds).map nextPow2) c) pad
            = if InRange (d2 :: ds) c then l.getD (flat (d2 :: ds) c) pad else pad := by
        refine ⟨fun l => (recursivePad pad (d2 :: ds) l).getD [], fun l hl => ?_⟩
        obtain ⟨o, h1, h2, h3⟩ := ih l (by simp) hposd (by omega)
        beta_reduce
        rw [h1]
        exact ⟨rfl, by rw [hP']; exact h2, h3⟩
      have hchunk : ∀ i, i < d → ((data.drop (P * i)).take P).length = P := by
        intro i hi
        rw [List.length_take, List.length_drop, hlen]
        have : P * i + P ≤ P * d := by rw [← Nat.mul_succ]; exact Nat.mul_le_mul_left _ hi
        omega
      have hparts : (chunks P data).mapM (recursivePad pad (d2 :: ds))
          = some ((List.range d).map fun i => g ((data.drop (P * i)).take P)) := by
        rw [mapM_some' _ g]
        · rw [chunks_eq P d hPpos data hlen, List.map_map]; rfl
        · intro l hl
          rw [chunks_eq P d hPpos data hlen] at hl
          obtain ⟨i, hi, rfl⟩ := List.mem_map.1 hl
          exact (hg _ (hchunk i (List.mem_range.1 hi))).1
      have hfirst : ((List.range d).map fun i => g ((data.drop (P * i)).take P))[0]? = some (g ((data.drop (P * 0)).take P)) := by
        rw [List.getElem?_map, List.getElem?_range hd]; rfl
      have hfl : (g ((data.drop (P * 0)).take P)).length = P' := (hg _ (hchunk 0 hd)).2.1
      obtain ⟨groups, hgroups⟩ : ∃ G, G = resize (nextPow2 d) (List.replicate P' pad)
          ((List.range d).map fun i => g ((data.drop (P * i)).take P)) := ⟨_, rfl⟩
      have hglen : groups.length = nextPow2 d := by rw [hgroups, length_resize]
      have hget : ∀ i, groups.getD i (List.replicate P' pad)
          = if i < d then g ((data.drop (P * i)).take P) else List.replicate P' pad := by
        intro i
        rw [hgroups, getD_resize]
        have := le_nextPow2 d
        by_cases hi : i < d
        · rw [if_pos (by omega), if_pos hi, List.getD_eq_getElem _ _ (by simpa using hi)]
          simp
        · rw [if_neg hi, List.getD_eq_default _ _ (by simpa using hi)]
          split <;> rfl
      have hgk : ∀ x ∈ groups, x.length = P' := by
        intro x hx
        obtain ⟨i, hi, rfl⟩ := List.getElem_of_mem hx
        rw [← List.getD_eq_getElem _ (List.replicate P' pad) hi, hget]
        split
        · rename_i h; exact (hg _ (hchunk i h)).2.1
        · simp
      refine ⟨groups.flatten, ?_, ?_, ?_⟩
      · rw [recursivePad, if_neg (by omega), ← hP, hparts]
        simp only [Option.bind_eq_bind, Option.bind_some, hfirst, hfl, hgroups]
      · rw [length_flatten' P' _ hgk, hglen, List.map_cons, List.prod_cons, ← hP']
      · intro c hc
        rw [List.map_cons] at hc
        obtain ⟨x, cs, rfl, h1, h2⟩ := (inRange_cons _ _ _).1 hc
        have h3 := flat_lt h2
        rw [← hP'] at h3
        rw [List.map_cons, flat, ← hP', getD_flatten P' _ hgk _ _ _ (by omega) h3,
          ← List.getD_eq_getElem _ (List.replicate P' pad), hget]
        simp only [inRange_cons_cons]
        by_cases hx : x < d
        · rw [if_pos hx, (hg _ (hchunk x hx)).2.2 cs h2]
          simp only [hx, true_and]
          by_cases hcs : InRange (d2 :: ds) cs
          · rw [if_pos hcs, if_pos hcs]
            have h4 := flat_lt hcs
            conv_rhs => rw [flat]
            simp only [List.getD_eq_getElem?_getD, List.getElem?_take, List.getElem?_drop]
            rw [if_pos (by omega), ← hP, mul_comm]
          · rw [if_neg hcs, if_neg hcs]
        · rw [if_neg hx, if_neg (by tauto), List.getD_replicate _ h3]

theorem padNextPow2_spec {α : Type} (t : Tensor α) (pad : α) (hne : t.shape ≠ []) (hpos : ∀ d ∈ t.shape, 0 < d)
    (hlen : t.data.length = t.shape.prod) :
    ∃ out, t.padNextPow2 pad = some ⟨t.shape.map nextPow2, out⟩ ∧ out.length = (t.shape.map nextPow2).prod ∧
      ∀ c, InRange (t.shape.map nextPow2) c → out.getD (flat (t.shape.map nextPow2) c) pad
        = if InRange t.shape c then t.data.getD (flat t.shape c) pad else pad := by
  unfold Tensor.padNextPow2
  rw [if_neg hne]
  by_cases hall : (t.shape.all fun d => nextPow2 d == d) = true
  · rw [if_pos hall]
    have : t.shape.map nextPow2 = t.shape := by
      conv_rhs => rw [← List.map_id t.shape]
      apply List.map_congr_left
      intro d hd
      have := List.all_eq_true.1 hall d hd
      simpa using this
    rw [this]
    exact ⟨t.data, rfl, hlen, fun c hc => by rw [if_pos hc]⟩
  · rw [if_neg hall]
    obtain ⟨out, h1, h2, h3⟩ := recursivePad_spec pad t.shape t.data hne hpos hlen
    refine ⟨out, ?_, h2, h3⟩
    rw [h1]
    simp [Tensor.new, h2]

end Lemmas
