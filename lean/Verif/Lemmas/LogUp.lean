import Verif.Lemmas.Slices
import Verif.Spec.LogUp
import Verif.Model.LogUp
import Verif.Lemmas.Mle
import Mathlib.Tactic.Ring
import Mathlib.Tactic.FieldSimp
import Mathlib.Data.List.GetD
import Mathlib.Tactic.LinearCombination
import Mathlib.Algebra.Polynomial.Roots
import Mathlib.Algebra.Polynomial.BigOperators
import Mathlib.Data.Fintype.Basic

namespace Lemmas

open Model Spec

variable {F : Type} [Field F] [DecidableEq F]

/-- The fractions a layer stands for. -/
def layerFr : LogUpLayer F → List (F × F)
  | .generic n d | .initialTable n d => n.zip d
  | .initialLookup d => d.map fun x => (-1, x)

/-- As many numerators as denominators. -/
def LayerWf : LogUpLayer F → Prop
  | .generic n d | .initialTable n d => n.length = d.length
  | .initialLookup _ => True

theorem layerFr_length (l : LogUpLayer F) (h : LayerWf l) : (layerFr l).length = l.den.length := by
  cases l <;> simp_all [layerFr, LayerWf, LogUpLayer.den]

theorem layerFr_den (l : LogUpLayer F) (h : LayerWf l) : (layerFr l).map Prod.snd = l.den := by
  cases l with
  | generic n d => exact List.map_snd_zip (le_of_eq h.symm)
  | initialTable n d => exact List.map_snd_zip (le_of_eq h.symm)
  | initialLookup d => simp [layerFr, LogUpLayer.den, Function.comp_def]

/-- The fractions of the next layer. -/
def nextFr (k : ℕ) (fr : List (F × F)) : List (F × F) := List.zipWith fracAdd (fr.take k) (fr.drop k)

theorem next_eq (k : ℕ) (l : LogUpLayer F) (hw : LayerWf l) (hl : l.den.length = 2 ^ (k + 2)) :
    l.next = some (some (.generic ((nextFr (2 ^ (k + 1)) (layerFr l)).map Prod.fst)
      ((nextFr (2 ^ (k + 1)) (layerFr l)).map Prod.snd))) := by
  have hnv : l.numVars = some (k + 1) := by
    unfold LogUpLayer.numVars
    rw [hl, pow_succ, Nat.mul_div_cancel _ (by omega : 0 < 2), ceilLog2_pow]
  have hle : 2 ^ (k + 1) ≤ 2 ^ (k + 2) := Nat.pow_le_pow_right (by omega) (by omega)
  cases l with
  | generic n d =>
    have hd : d.length = 2 ^ (k + 2) := hl
    have hn : n.length = 2 ^ (k + 2) := (show n.length = d.length from hw).trans hd
    simp only [LogUpLayer.next, hnv, Option.bind_eq_bind, Option.bind_some, if_neg (Nat.succ_ne_zero k), splitAt?,
      hn, hd, if_pos hle, nextFr, layerFr]
    simp only [List.zip, List.take_zipWith, List.drop_zipWith]
  | initialTable n d =>
    have hd : d.length = 2 ^ (k + 2) := hl
    have hn : n.length = 2 ^ (k + 2) := (show n.length = d.length from hw).trans hd
    simp only [LogUpLayer.next, hnv, Option.bind_eq_bind, Option.bind_some, if_neg (Nat.succ_ne_zero k), splitAt?,
      hn, hd, if_pos hle, nextFr, layerFr]
    simp only [List.zip, List.take_zipWith, List.drop_zipWith]
  | initialLookup d =>
    have hd : d.length = 2 ^ (k + 2) := hl
    simp only [LogUpLayer.next, hnv, Option.bind_eq_bind, Option.bind_some, if_neg (Nat.succ_ne_zero k), splitAt?,
      hd, if_pos hle, nextFr, layerFr, ← List.map_take, ← List.map_drop, List.zipWith_map]

theorem next_last (l : LogUpLayer F) (hl : l.den.length = 2) : l.next = some none := by
  have hnv : l.numVars = some 0 := by
    unfold LogUpLayer.numVars
    rw [hl]; rfl
  simp [LogUpLayer.next, hnv]

theorem sum_zipWith_fracAdd : ∀ (a b : List (F × F)), a.length = b.length →
    (denProd (List.zipWith fracAdd a b) = denProd a * denProd b) ∧
    ((∀ x ∈ a, x.2 ≠ 0) → (∀ x ∈ b, x.2 ≠ 0) →
      (∀ x ∈ List.zipWith fracAdd a b, x.2 ≠ 0) ∧ fracSum (List.zipWith fracAdd a b) = fracSum a + fracSum b) := by
  intro a
  induction a with
  | nil => intro b h; cases b <;> simp_all [denProd, fracSum]
  | cons x xs ih =>
    intro b h
    cases b with
    | nil => simp at h
    | cons y ys =>
      obtain ⟨h1, h2⟩ := ih ys (by simpa using h)
      constructor
      · simp only [denProd, List.zipWith_cons_cons, List.map_cons, List.prod_cons, fracAdd] at h1 ⊢
        rw [h1]; ring
      · intro hx hy
        have hx0 : x.2 ≠ 0 := hx x (by simp)
        have hy0 : y.2 ≠ 0 := hy y (by simp)
        obtain ⟨h3, h4⟩ := h2 (fun z hz => hx z (by simp [hz])) (fun z hz => hy z (by simp [hz]))
        constructor
        · intro z hz
          simp only [List.zipWith_cons_cons, List.mem_cons] at hz
          rcases hz with rfl | hz
          · exact mul_ne_zero hx0 hy0
          · exact h3 z hz
        · simp only [fracSum, List.zipWith_cons_cons, List.map_cons, List.sum_cons, fracAdd] at h4 ⊢
          rw [h4]
          field_simp
          ring

theorem fracSum_append (a b : List (F × F)) : fracSum (a ++ b) = fracSum a + fracSum b := by simp [fracSum]

theorem denProd_append (a b : List (F × F)) : denProd (a ++ b) = denProd a * denProd b := by simp [denProd]

theorem nextFr_spec (k : ℕ) (fr : List (F × F)) (h : fr.length = 2 * k) :
    (nextFr k fr).length = k ∧ denProd (nextFr k fr) = denProd fr ∧
    ((∀ x ∈ fr, x.2 ≠ 0) → (∀ x ∈ nextFr k fr, x.2 ≠ 0) ∧ fracSum (nextFr k fr) = fracSum fr) := by
  have hl : (fr.take k).length = (fr.drop k).length := by simp; omega
  obtain ⟨h1, h2⟩ := sum_zipWith_fracAdd _ _ hl
  refine ⟨by simp [nextFr]; omega, ?_, fun hx => ?_⟩
  · unfold nextFr
    rw [h1, ← denProd_append, List.take_append_drop]
  · obtain ⟨h3, h4⟩ := h2 (fun z hz => hx z (List.mem_of_mem_take hz)) (fun z hz => hx z (List.mem_of_mem_drop hz))
    refine ⟨h3, ?_⟩
    unfold nextFr
    rw [h4, ← fracSum_append, List.take_append_drop]

theorem layerFr_generic (fr : List (F × F)) : layerFr (.generic (fr.map Prod.fst) (fr.map Prod.snd)) = fr := by
  simp only [layerFr]
  induction fr with
  | nil => rfl
  | cons x xs ih => simp [ih]

/-- The whole circuit over `2^(k+1)` fractions. -/
theorem circuit_spec (k : ℕ) : ∀ (fuel : ℕ) (l : LogUpLayer F), LayerWf l → l.den.length = 2 ^ (k + 1) → k + 1 ≤ fuel →
    ∃ (ls : List (LogUpLayer F)) (last : LogUpLayer F), circuitLayers fuel l = some ls ∧ ls.length = k + 1 ∧
      ls.getLast? = some last ∧ (k = 0 → last = l) ∧ (0 < k → ∃ n d, last = .generic n d) ∧ LayerWf last ∧
      last.den.length = 2 ∧
      (∀ m ∈ ls, LayerWf m ∧ denProd (layerFr m) = denProd (layerFr l) ∧
        ((∀ x ∈ layerFr l, x.2 ≠ 0) → (∀ x ∈ layerFr m, x.2 ≠ 0) ∧ fracSum (layerFr m) = fracSum (layerFr l))) := by
  induction k with
  | zero =>
    intro fuel l hw hl hf
    obtain ⟨f, rfl⟩ : ∃ f, fuel = f + 1 := ⟨fuel - 1, by omega⟩
    refine ⟨[l], l, ?_, rfl, rfl, fun _ => rfl, fun h => absurd h (by omega), hw, by simpa using hl, ?_⟩
    · simp [circuitLayers, next_last l (by simpa using hl)]
    · simp +contextual [hw]
  | succ k ih =>
    intro fuel l hw hl hf
    obtain ⟨f, rfl⟩ : ∃ f, fuel = f + 1 := ⟨fuel - 1, by omega⟩
    have hlen : (layerFr l).length = 2 * 2 ^ (k + 1) := by rw [layerFr_length l hw, hl, pow_succ]; ring
    obtain ⟨hn1, hn2, hn3⟩ := nextFr_spec (2 ^ (k + 1)) (layerFr l) hlen
    obtain ⟨l', hl'⟩ : ∃ l', l' = LogUpLayer.generic ((nextFr (2 ^ (k + 1)) (layerFr l)).map Prod.fst)
      ((nextFr (2 ^ (k + 1)) (layerFr l)).map Prod.snd) := ⟨_, rfl⟩
    have hfr : layerFr l' = nextFr (2 ^ (k + 1)) (layerFr l) := by rw [hl', layerFr_generic]
    have hw' : LayerWf l' := by rw [hl']; simp [LayerWf]
    have hd' : l'.den.length = 2 ^ (k + 1) := by rw [← layerFr_length l' hw', hfr, hn1]
    obtain ⟨ls, last, h1, h2, h3, h4, h5, h6, h7, h8⟩ := ih f l' hw' hd' (by omega)
    refine ⟨l :: ls, last, ?_, by simp [h2], ?_, fun h => absurd h (by omega), fun _ => ?_, h6, h7, ?_⟩
    · simp [circuitLayers, next_eq k l hw hl, ← hl', h1]
    · cases ls with
      | nil => simp at h2
      | cons a as => rw [List.getLast?_cons_cons]; exact h3
    · rcases Nat.eq_zero_or_pos k with hk | hk
      · exact ⟨_, _, (h4 hk).trans hl'⟩
      · exact h5 hk
    · intro m hm
      rcases List.mem_cons.1 hm with rfl | hm
      · simp +contextual [hw]
      · obtain ⟨a1, a2, a3⟩ := h8 m hm
        refine ⟨a1, by rw [a2, hfr, hn2], fun hx => ?_⟩
        obtain ⟨b1, b2⟩ := hn3 hx
        rw [hfr, b2] at a3
        exact a3 b1

/-- The outputs of the circuit: two fractions with the same sum. -/
theorem outputs_spec (k : ℕ) (l : LogUpLayer F) (hw : LayerWf l) (hl : l.den.length = 2 ^ (k + 1))
    (hk : k = 0 → ∃ n d, l = .initialTable n d ∨ l = .generic n d) :
    ∃ n0 n1 d0 d1, circuitOutputs l = some [n0, n1, d0, d1] ∧ d0 * d1 = denProd (layerFr l) ∧
      ((∀ x ∈ layerFr l, x.2 ≠ 0) → d0 ≠ 0 ∧ d1 ≠ 0 ∧ n0 / d0 + n1 / d1 = fracSum (layerFr l)) := by
  have hfuel : k + 1 ≤ l.den.length := by rw [hl]; exact Nat.lt_two_pow_self.le
  obtain ⟨ls, last, h1, -, h3, h4, h5, h6, h7, h8⟩ := circuit_spec k _ l hw hl hfuel
  obtain ⟨-, a2, a3⟩ := h8 last (List.mem_of_getLast? h3)
  have hgen : ∃ n d, last = .initialTable n d ∨ last = .generic n d := by
    rcases Nat.eq_zero_or_pos k with h | h
    · obtain ⟨n, d, h'⟩ := hk h
      exact ⟨n, d, by rw [h4 h]; exact h'⟩
    · obtain ⟨n, d, h'⟩ := h5 h
      exact ⟨n, d, Or.inr h'⟩
  have key : ∃ n d, last.flat = n ++ d ∧ n.length = 2 ∧ d.length = 2 ∧ layerFr last = n.zip d := by
    obtain ⟨n, d, h | h⟩ := hgen
    · subst h
      exact ⟨n, d, rfl, (show n.length = d.length from h6).trans h7, h7, rfl⟩
    · subst h
      exact ⟨n, d, rfl, (show n.length = d.length from h6).trans h7, h7, rfl⟩
  obtain ⟨n, d, hflat, hn, hd, hfr⟩ := key
  obtain ⟨n0, n1, rfl⟩ := List.length_eq_two.1 hn
  obtain ⟨d0, d1, rfl⟩ := List.length_eq_two.1 hd
  rw [hfr] at a2 a3
  refine ⟨n0, n1, d0, d1, ?_, ?_, fun hx => ?_⟩
  · simp [circuitOutputs, circuit, h1, h3, hflat]
  · rw [← a2]; simp [denProd]
  · obtain ⟨b1, b2⟩ := a3 hx
    refine ⟨b1 (n0, d0) (by simp), b1 (n1, d1) (by simp), ?_⟩
    rw [← b2]; simp [fracSum]

/-- The fraction of a circuit. -/
theorem fraction_spec (k : ℕ) (l : LogUpLayer F) (hw : LayerWf l) (hl : l.den.length = 2 ^ (k + 1))
    (hk : k = 0 → ∃ n d, l = .initialTable n d ∨ l = .generic n d) :
    ∃ outs N, circuitOutputs l = some outs ∧ fractionalOutputs [outs] = some [(N, denProd (layerFr l))] ∧
      ((∀ x ∈ layerFr l, x.2 ≠ 0) → N / denProd (layerFr l) = fracSum (layerFr l)) := by
  obtain ⟨n0, n1, d0, d1, h1, h2, h3⟩ := outputs_spec k l hw hl hk
  refine ⟨_, n0 * d1 + n1 * d0, h1, ?_, fun hx => ?_⟩
  · rw [← h2]; simp [fractionalOutputs, quad]
  · obtain ⟨a, b, c⟩ := h3 hx
    rw [← c, ← h2]
    field_simp

theorem finalFold (fr : List (F × F)) : ∀ acc : F × F,
    let r := fr.foldl (fun acc nd => (acc.1 * nd.2 + nd.1 * acc.2, acc.2 * nd.2)) acc
    r.2 = acc.2 * denProd fr ∧ ((∀ x ∈ fr, x.2 ≠ 0) → acc.2 ≠ 0 → r.1 / r.2 = acc.1 / acc.2 + fracSum fr) := by
  induction fr with
  | nil => intro acc; simp [denProd, fracSum]
  | cons x xs ih =>
    intro acc
    obtain ⟨h1, h2⟩ := ih (acc.1 * x.2 + x.1 * acc.2, acc.2 * x.2)
    refine ⟨?_, fun hx ha => ?_⟩
    · simp only [List.foldl_cons, h1, denProd, List.map_cons, List.prod_cons]
      ring
    · have hx0 : x.2 ≠ 0 := hx x (by simp)
      have := h2 (fun z hz => hx z (by simp [hz])) (mul_ne_zero ha hx0)
      simp only [List.foldl_cons, fracSum, List.map_cons, List.sum_cons] at this ⊢
      rw [this]
      field_simp
      ring

theorem denProd_ne_zero (fr : List (F × F)) : denProd fr ≠ 0 ↔ ∀ x ∈ fr, x.2 ≠ 0 := by
  induction fr with
  | nil => simp [denProd]
  | cons x xs ih =>
    have : denProd (x :: xs) = x.2 * denProd xs := by simp [denProd]
    rw [this, mul_ne_zero_iff, ih]
    simp

/-- What the final test decides. -/
theorem finalCheck_iff (fr : List (F × F)) : finalCheck fr = true ↔ (∀ x ∈ fr, x.2 ≠ 0) ∧ fracSum fr = 0 := by
  obtain ⟨h1, h2⟩ := finalFold fr (0, 1)
  simp only [one_mul] at h1
  unfold finalCheck
  simp only [Bool.and_eq_true, beq_iff_eq, bne_iff_ne]
  constructor
  · rintro ⟨a, b⟩
    rw [h1, denProd_ne_zero] at b
    refine ⟨b, ?_⟩
    have := h2 b one_ne_zero
    rw [a] at this
    simpa using this.symm
  · rintro ⟨a, b⟩
    have hne := (denProd_ne_zero fr).2 a
    rw [h1]
    refine ⟨?_, hne⟩
    have := h2 a one_ne_zero
    rw [h1, b, div_eq_iff hne] at this
    simpa using this

/-! ### Denominators from columns -/

theorem foldlM_cols (i : ℕ) (csc : F) : ∀ (cols : List (List F)) (s : ℕ) (acc : F), (∀ c ∈ cols, i < c.length) →
    (cols.zip ((List.range cols.length).map fun (j : ℕ) => csc ^ (s + j))).foldlM
      (fun acc cj => do
        let x ← cj.1[i]?
        some (acc + cj.2 * x)) acc = some (acc + csc ^ s * fingerprint csc (rowOf cols i)) := by
  intro cols
  induction cols with
  | nil => intro s acc _; simp [fingerprint, rowOf]
  | cons c cs ih =>
    intro s acc h
    have hi : i < c.length := h c (by simp)
    have := ih (s + 1) (acc + csc ^ s * c.getD i 0) (fun d hd => h d (by simp [hd]))
    rw [List.length_cons, List.range_succ_eq_map, List.map_cons, List.zip_cons_cons, List.foldlM_cons, List.map_map]
    have h2 : (fun j : ℕ => csc ^ (s + j)) ∘ Nat.succ = fun j : ℕ => csc ^ (s + 1 + j) := by
      funext j; simp only [Function.comp]; congr 1; omega
    rw [h2]
    simp only [List.getElem?_eq_getElem hi, Option.bind_eq_bind, Option.bind_some, add_zero]
    rw [List.getD_eq_getElem _ _ hi] at this
    simp only [Option.bind_eq_bind] at this
    rw [this]
    simp only [rowOf, List.map_cons, fingerprint, List.getD_eq_getElem _ _ hi]
    congr 1
    ring

theorem mergedDen_eq (n : ℕ) (cols : List (List F)) (c csc : F) (h0 : cols ≠ []) (h : ∀ x ∈ cols, x.length = n) :
    mergedDen cols c csc = some ((List.range n).map fun i => c + fingerprint csc (rowOf cols i)) := by
  cases cols with
  | nil => exact absurd rfl h0
  | cons a as =>
    unfold mergedDen
    show List.mapM _ (List.range a.length) = _
    rw [h a (by simp)]
    refine mapM_some' _ _ _ fun i hi => ?_
    have := foldlM_cols i csc (a :: as) 0 c (fun x hx => by rw [h x hx]; exact List.mem_range.1 hi)
    simpa using this

/-- Numerator and fingerprint of every lookup of an instance. -/
def lookupEntries (x : List (List F) × F) : List (F × F) :=
  (List.range (x.1.headD []).length).map fun i => (-1, fingerprint x.2 (rowOf x.1 i))

/-- Numerator and fingerprint of every row of a table. -/
def tableEntries (x : List (List F) × List F × F) : List (F × F) :=
  x.2.1.zip ((List.range (x.1.headD []).length).map fun i => fingerprint x.2.2 (rowOf x.1 i))

def withConst (c : F) (es : List (F × F)) : List (F × F) := es.map fun e => (e.1, c + e.2)

theorem withConst_ne (c : F) (es : List (F × F)) : (∀ x ∈ withConst c es, x.2 ≠ 0) ↔ ∀ e ∈ es, c + e.2 ≠ 0 := by
  constructor
  · intro h e he
    exact h (e.1, c + e.2) (List.mem_map.2 ⟨e, he, rfl⟩)
  · intro h x hx
    obtain ⟨e, he, rfl⟩ := List.mem_map.1 hx
    exact h e he

/-- Columns of the same length `2^(k+2)`. -/
def LookupCircuitOk (x : List (List F) × F) : Prop := x.1 ≠ [] ∧ ∃ k, ∀ c ∈ x.1, c.length = 2 ^ (k + 2)

/-- Columns and multiplicities of the same length `2^(k+1)`. -/
def TableCircuitOk (x : List (List F) × List F × F) : Prop :=
  x.1 ≠ [] ∧ ∃ k, (∀ c ∈ x.1, c.length = 2 ^ (k + 1)) ∧ x.2.1.length = 2 ^ (k + 1)

theorem headD_length {n : ℕ} {cols : List (List F)} (h0 : cols ≠ []) (h : ∀ c ∈ cols, c.length = n) :
    (cols.headD []).length = n := by
  cases cols with
  | nil => exact absurd rfl h0
  | cons a as => exact h a (by simp)

/-- A circuit whose fraction is known. -/
def GoodCircuit (l : LogUpLayer F) (fr : List (F × F)) : Prop :=
  ∃ outs N, circuitOutputs l = some outs ∧ fractionalOutputs [outs] = some [(N, denProd fr)] ∧
      ((∀ x ∈ fr, x.2 ≠ 0) → N / denProd fr = fracSum fr)

theorem lookup_good (x : List (List F) × F) (c : F) (h : LookupCircuitOk x) :
    ∃ l, lookupLayer x.1 c x.2 = some l ∧ GoodCircuit l (withConst c (lookupEntries x)) := by
  obtain ⟨h0, k, hk⟩ := h
  obtain ⟨l, hl⟩ : ∃ l, l = LogUpLayer.initialLookup
    ((List.range (2 ^ (k + 2))).map fun i => c + fingerprint x.2 (rowOf x.1 i)) := ⟨_, rfl⟩
  refine ⟨l, ?_, ?_⟩
  · simp [lookupLayer, mergedDen_eq _ x.1 c x.2 h0 hk, hl]
  · have hfr : withConst c (lookupEntries x) = layerFr l := by
      simp only [withConst, lookupEntries, layerFr, hl, headD_length h0 hk, List.map_map, Function.comp_def]
    rw [hfr]
    exact fraction_spec (k + 1) l (by rw [hl]; trivial) (by rw [hl]; simp [LogUpLayer.den]) (by omega)

theorem table_good (x : List (List F) × List F × F) (c : F) (h : TableCircuitOk x) :
    ∃ l, tableLayer x.1 x.2.1 c x.2.2 = some l ∧ GoodCircuit l (withConst c (tableEntries x)) := by
  obtain ⟨h0, k, hk, hm⟩ := h
  obtain ⟨l, hl⟩ : ∃ l, l = LogUpLayer.initialTable x.2.1
    ((List.range (2 ^ (k + 1))).map fun i => c + fingerprint x.2.2 (rowOf x.1 i)) := ⟨_, rfl⟩
  refine ⟨l, ?_, ?_⟩
  · simp [tableLayer, mergedDen_eq _ x.1 c x.2.2 h0 hk, hl]
  · have hfr : withConst c (tableEntries x) = layerFr l := by
      simp only [withConst, tableEntries, layerFr, hl, headD_length h0 hk]
      rw [show (fun e : F × F => (e.1, c + e.2)) = Prod.map id (fun v => c + v) from rfl, ← List.zip_map_right,
        List.map_map]
      rfl
    rw [hfr]
    exact fraction_spec k l (by rw [hl]; simp [LayerWf, hm]) (by rw [hl]; simp [LogUpLayer.den]) (fun _ => ⟨_, _, Or.inl hl⟩)

theorem mapM_append' {α β : Type} (f : α → Option β) (a b : List α) :
    (a ++ b).mapM f = (a.mapM f).bind fun x => (b.mapM f).bind fun y => some (x ++ y) := by
  rw [List.mapM_append]; rfl

theorem fractionalOutputs_cons (o : List F) (os : List (List F)) :
    fractionalOutputs (o :: os) = (fractionalOutputs [o]).bind fun a => (fractionalOutputs os).bind fun b => some (a ++ b) := by
  unfold fractionalOutputs
  rw [← List.singleton_append, mapM_append']

/-- The outputs of many circuits. -/
theorem many_good : ∀ (ls : List (LogUpLayer F)) (frs : List (List (F × F))), List.Forall₂ GoodCircuit ls frs →
    ∃ outs fr, ls.mapM circuitOutputs = some outs ∧ fractionalOutputs outs = some fr ∧
      denProd fr = denProd frs.flatten ∧ ((∀ x ∈ frs.flatten, x.2 ≠ 0) → fracSum fr = fracSum frs.flatten) := by
  intro ls frs h
  induction h with
  | nil => exact ⟨[], [], rfl, rfl, rfl, fun _ => rfl⟩
  | @cons l f ls frs hl _ ih =>
    obtain ⟨outs, N, h1, h2, h3⟩ := hl
    obtain ⟨os, fr, i1, i2, i3, i4⟩ := ih
    refine ⟨outs :: os, (N, denProd f) :: fr, ?_, ?_, ?_, fun hx => ?_⟩
    · rw [List.mapM_cons, h1, i1]; rfl
    · rw [fractionalOutputs_cons, h2, i2]; rfl
    · rw [List.flatten_cons, denProd_append, ← i3]; simp [denProd]
    · rw [List.flatten_cons, fracSum_append, ← h3 (fun x hxx => hx x (by simp [hxx])),
        ← i4 (fun x hxx => hx x (by rw [List.flatten_cons]; exact List.mem_append_right _ hxx))]
      simp [fracSum]

theorem mapM_good {α : Type} (f : α → Option (LogUpLayer F)) (g : α → List (F × F)) (l : List α)
    (h : ∀ x ∈ l, ∃ y, f x = some y ∧ GoodCircuit y (g x)) : ∃ ys, l.mapM f = some ys ∧ List.Forall₂ GoodCircuit ys (l.map g) := by
  induction l with
  | nil => exact ⟨[], rfl, .nil⟩
  | cons a as ih =>
    obtain ⟨y, h1, h2⟩ := h a (by simp)
    obtain ⟨ys, h3, h4⟩ := ih (fun x hx => h x (by simp [hx]))
    refine ⟨y :: ys, ?_, .cons h2 h4⟩
    rw [List.mapM_cons, h1, h3]; rfl

def allEntries (lookups : List (List (List F) × F)) (tables : List (List (List F) × List F × F)) : List (F × F) :=
  lookups.flatMap lookupEntries ++ tables.flatMap tableEntries

/-- What the whole test decides. -/
theorem lookupTest_iff (lookups : List (List (List F) × F)) (tables : List (List (List F) × List F × F)) (c : F)
    (hl : ∀ x ∈ lookups, LookupCircuitOk x) (ht : ∀ x ∈ tables, TableCircuitOk x) :
    ∃ b, lookupTest lookups tables c = some b ∧
      (b = true ↔ (∀ e ∈ allEntries lookups tables, c + e.2 ≠ 0) ∧
        fracSum (withConst c (allEntries lookups tables)) = 0) := by
  obtain ⟨ls, h1, h2⟩ := mapM_good (fun x => lookupLayer x.1 c x.2) (fun x => withConst c (lookupEntries x)) lookups
    (fun x hx => lookup_good x c (hl x hx))
  obtain ⟨ts, h3, h4⟩ := mapM_good (fun x => tableLayer x.1 x.2.1 c x.2.2) (fun x => withConst c (tableEntries x)) tables
    (fun x hx => table_good x c (ht x hx))
  obtain ⟨outs, fr, h5, h6, h7, h8⟩ := many_good _ _ (List.rel_append h2 h4)
  have hflat : (lookups.map (fun x => withConst c (lookupEntries x)) ++
      tables.map (fun x => withConst c (tableEntries x))).flatten = withConst c (allEntries lookups tables) := by
    simp only [withConst, allEntries, List.flatten_append, List.map_append, List.flatMap, List.map_flatten, List.map_map]
    rfl
  rw [hflat] at h7 h8
  refine ⟨finalCheck fr, ?_, ?_⟩
  · simp only [lookupTest, Option.bind_eq_bind, h1, h3, h5, h6, Option.bind_some]
  · have hne : (∀ x ∈ fr, x.2 ≠ 0) ↔ ∀ e ∈ allEntries lookups tables, c + e.2 ≠ 0 := by
      rw [← denProd_ne_zero, h7, denProd_ne_zero, withConst_ne]
    rw [finalCheck_iff, hne]
    constructor
    · rintro ⟨a, b⟩
      refine ⟨a, ?_⟩
      rw [← h8 ((withConst_ne c _).2 a)]; exact b
    · rintro ⟨a, b⟩
      refine ⟨a, ?_⟩
      rw [h8 ((withConst_ne c _).2 a)]; exact b

/-! ### Counting challenges -/

open Polynomial in
/-- The numerator polynomial over a set of values. -/
noncomputable def numPoly (V : Finset F) (es : List (F × F)) : F[X] :=
  (es.map fun e => C e.1 * ∏ u ∈ V.erase e.2, (X + C u)).sum

open Polynomial in
theorem numPoly_eval (V : Finset F) (c : F) : ∀ es : List (F × F), (∀ e ∈ es, e.2 ∈ V) → (∀ v ∈ V, c + v ≠ 0) →
    (numPoly V es).eval c = (∏ u ∈ V, (c + u)) * fracSum (withConst c es) := by
  intro es
  induction es with
  | nil => intro _ _; simp [numPoly, fracSum, withConst]
  | cons e es ih =>
    intro h hc
    have := ih (fun x hx => h x (by simp [hx])) hc
    have he : e.2 ∈ V := h e (by simp)
    have hprod : (∏ u ∈ V.erase e.2, (c + u)) * (c + e.2) = ∏ u ∈ V, (c + u) := Finset.prod_erase_mul V _ he
    simp only [numPoly, fracSum, withConst, List.map_cons, List.sum_cons, eval_add, eval_mul, eval_C, eval_prod, eval_X]
      at this ⊢
    rw [this, mul_add, ← hprod]
    have := hc e.2 he
    field_simp

open Polynomial in
theorem numPoly_eval_neg (V : Finset F) (l0 : F) (h0 : l0 ∈ V) : ∀ es : List (F × F),
    (numPoly V es).eval (-l0) =
      ((es.filter fun e => e.2 = l0).map Prod.fst).sum * ∏ u ∈ V.erase l0, (-l0 + u) := by
  intro es
  induction es with
  | nil => simp [numPoly]
  | cons e es ih =>
    simp only [numPoly, List.map_cons, List.sum_cons, eval_add, eval_mul, eval_C, eval_prod, eval_X] at ih ⊢
    rw [ih]
    by_cases he : e.2 = l0
    · simp only [he, decide_true, List.filter_cons_of_pos, List.map_cons, List.sum_cons]
      ring
    · rw [List.filter_cons_of_neg (by simpa using he), Finset.prod_eq_zero (i := l0)]
      · ring
      · exact Finset.mem_erase.2 ⟨fun h => he h.symm, h0⟩
      · ring

open Polynomial in
theorem numPoly_degree (V : Finset F) : ∀ es : List (F × F), (numPoly V es).natDegree ≤ V.card := by
  intro es
  induction es with
  | nil => simp [numPoly]
  | cons e es ih =>
    simp only [numPoly, List.map_cons, List.sum_cons] at ih ⊢
    refine (natDegree_add_le _ _).trans (max_le ?_ ih)
    refine (natDegree_C_mul_le _ _).trans ?_
    refine (natDegree_prod_le _ _).trans ?_
    refine (Finset.sum_le_card_nsmul _ _ 1 fun u _ => natDegree_X_add_C u |>.le).trans ?_
    rw [nsmul_eq_mul, mul_one]
    exact_mod_cast Finset.card_le_card (Finset.erase_subset _ _)

open Classical in
/-- If the entries with fingerprint `l0` do not cancel, few constants pass. -/
theorem count_constants [Fintype F] (es : List (F × F)) (l0 : F)
    (h : ((es.filter fun e => e.2 = l0).map Prod.fst).sum ≠ 0) :
    (Finset.univ.filter fun c : F => (∀ e ∈ es, c + e.2 ≠ 0) ∧ fracSum (withConst c es) = 0).card ≤ es.length := by
  obtain ⟨V, hV⟩ : ∃ V, V = (es.map Prod.snd).toFinset := ⟨_, rfl⟩
  have hmem : ∀ e ∈ es, e.2 ∈ V := fun e he => by rw [hV, List.mem_toFinset]; exact List.mem_map.2 ⟨e, he, rfl⟩
  have h0 : l0 ∈ V := by
    by_contra hn
    apply h
    rw [List.filter_eq_nil_iff.2]
    · rfl
    · intro e he
      simp only [decide_eq_true_eq]
      intro heq
      exact hn (heq ▸ hmem e he)
  have hne : numPoly V es ≠ 0 := by
    intro hz
    have := numPoly_eval_neg V l0 h0 es
    rw [hz, Polynomial.eval_zero] at this
    rcases mul_eq_zero.1 this.symm with h1 | h1
    · exact h h1
    · rw [Finset.prod_eq_zero_iff] at h1
      obtain ⟨u, hu, hu0⟩ := h1
      exact (Finset.mem_erase.1 hu).1 (by linear_combination hu0)
  have hsub : (Finset.univ.filter fun c : F => (∀ e ∈ es, c + e.2 ≠ 0) ∧ fracSum (withConst c es) = 0) ⊆
      (numPoly V es).roots.toFinset := by
    intro c hc
    obtain ⟨-, hc1, hc2⟩ := Finset.mem_filter.1 hc
    rw [Multiset.mem_toFinset, Polynomial.mem_roots hne, Polynomial.IsRoot, numPoly_eval V c es hmem, hc2, mul_zero]
    intro v hv
    rw [hV, List.mem_toFinset] at hv
    obtain ⟨e, he, rfl⟩ := List.mem_map.1 hv
    exact hc1 e he
  refine (Finset.card_le_card hsub).trans ((Multiset.toFinset_card_le _).trans ?_)
  refine (Polynomial.card_roots' _).trans ((numPoly_degree V es).trans ?_)
  rw [hV]
  simpa using List.toFinset_card_le (es.map Prod.snd)

/-- The fingerprint as a polynomial in the challenge. -/
noncomputable def fpPoly : List F → Polynomial F
  | [] => 0
  | x :: xs => Polynomial.C x + Polynomial.X * fpPoly xs

theorem fpPoly_eval (csc : F) (row : List F) : (fpPoly row).eval csc = fingerprint csc row := by
  induction row with
  | nil => simp [fpPoly, fingerprint]
  | cons x xs ih => simp [fpPoly, fingerprint, ih]

theorem fpPoly_degree (row : List F) : (fpPoly row).natDegree ≤ row.length - 1 := by
  induction row with
  | nil => simp [fpPoly]
  | cons x xs ih =>
    cases xs with
    | nil => simp [fpPoly]
    | cons y ys =>
      refine (Polynomial.natDegree_add_le _ _).trans (max_le (by simp) ?_)
      refine Polynomial.natDegree_mul_le.trans ?_
      rw [Polynomial.natDegree_X]
      simp only [List.length_cons] at ih ⊢
      omega

theorem fpPoly_inj : ∀ (a b : List F), a.length = b.length → fpPoly a = fpPoly b → a = b := by
  intro a
  induction a with
  | nil => intro b h _; cases b <;> simp_all
  | cons x xs ih =>
    intro b h he
    cases b with
    | nil => simp at h
    | cons y ys =>
      have h0 : x = y := by
        have := congrArg (Polynomial.eval 0) he
        simpa [fpPoly] using this
      subst h0
      have : fpPoly xs = fpPoly ys := by
        simp only [fpPoly] at he
        exact mul_left_cancel₀ Polynomial.X_ne_zero (add_left_cancel he)
      rw [ih ys (by simpa using h) this]

open Classical in
/-- Two different rows rarely have the same fingerprint. -/
theorem count_collision [Fintype F] (a b : List F) (h : a.length = b.length) (hne : a ≠ b) :
    (Finset.univ.filter fun csc : F => fingerprint csc a = fingerprint csc b).card ≤ a.length - 1 := by
  have hp : fpPoly a - fpPoly b ≠ 0 := fun h0 => hne (fpPoly_inj a b h (sub_eq_zero.1 h0))
  have hsub : (Finset.univ.filter fun csc : F => fingerprint csc a = fingerprint csc b) ⊆
      (fpPoly a - fpPoly b).roots.toFinset := by
    intro c hc
    rw [Multiset.mem_toFinset, Polynomial.mem_roots hp, Polynomial.IsRoot, Polynomial.eval_sub, fpPoly_eval, fpPoly_eval,
      (Finset.mem_filter.1 hc).2, sub_self]
  refine (Finset.card_le_card hsub).trans ((Multiset.toFinset_card_le _).trans ?_)
  refine (Polynomial.card_roots' _).trans ?_
  refine (Polynomial.natDegree_sub_le _ _).trans (max_le (fpPoly_degree a) ?_)
  rw [h]; exact fpPoly_degree b

/-! ### Multiplicities -/

theorem rowOf_intCols (ι : ℤ → F) (w : ℕ) (rows : List (List ℤ)) (hw : ∀ r ∈ rows, r.length = w) (i : ℕ)
    (hi : i < rows.length) : rowOf (intCols ι w rows) i = rows[i].map ι := by
  have hr := hw rows[i] (List.getElem_mem hi)
  apply List.ext_getElem
  · simp [rowOf, intCols, hr]
  · intro j h1 h2
    simp only [List.length_map] at h2
    simp only [rowOf, intCols, List.getElem_map, List.getElem_range]
    rw [List.getD_eq_getElem _ _ (by simpa using hi), List.getElem_map, List.getD_eq_getElem _ _ h2]

theorem map_range_getElem {α β : Type} (l : List α) (f : ℕ → β) (g : α → β)
    (h : ∀ i (hi : i < l.length), f i = g l[i]) : (List.range l.length).map f = l.map g := by
  apply List.ext_getElem
  · simp
  · intro i h1 h2
    simp only [List.length_map, List.length_range] at h1
    simp [h i h1]

theorem headD_intCols (ι : ℤ → F) (w : ℕ) (hw : 0 < w) (rows : List (List ℤ)) :
    ((intCols ι w rows).headD []).length = rows.length := by
  obtain ⟨v, rfl⟩ : ∃ v, w = v + 1 := ⟨w - 1, by omega⟩
  simp [intCols, List.range_succ_eq_map]

theorem sum_map_list (l : List (List ℤ)) (f : List ℤ → F) :
    (l.map f).sum = ∑ r ∈ l.toFinset, ((l.count r : ℕ) : F) * f r := by
  rw [Finset.sum_list_map_count]
  simp only [nsmul_eq_mul]
  refine Finset.sum_congr rfl fun r _ => ?_
  congr 2
  simp only [List.count]
  congr 1
  funext a
  show decide (a = r) = (a == r)
  rw [Bool.eq_iff_iff, decide_eq_true_iff, beq_iff_eq]

/-- The fractions of the lookups cancel those of the table. -/
theorem multiplicities_cancel (key : List ℤ → ℤ) (tab look : List (List ℤ)) (f : List ℤ → F)
    (hsub : ∀ r ∈ look, r ∈ tab) (hinj : ∀ r ∈ tab, ∀ r' ∈ tab, key r = key r' → r = r')
    (hcount : ∀ r ∈ tab, ((tab.count r : ℕ) : F) ≠ 0) :
    (List.zipWith (fun m r => m * f r) (multiplicities (F := F) (tab.map key) (look.map key)) tab).sum
      = (look.map f).sum := by
  have hk : ∀ (l : List (List ℤ)), (∀ r ∈ l, r ∈ tab) → ∀ r ∈ tab, (l.map key).count (key r) = l.count r := by
    intro l hl r hr
    induction l with
    | nil => rfl
    | cons a as ih =>
      rw [List.map_cons, List.count_cons, List.count_cons, ih (fun x hx => hl x (by simp [hx]))]
      congr 1
      by_cases h : a = r
      · simp [h]
      · have : key a ≠ key r := fun h' => h (hinj a (hl a (by simp)) r hr h')
        simp [h, this]
  have hz : (List.zipWith (fun m r => m * f r) (multiplicities (F := F) (tab.map key) (look.map key)) tab)
      = tab.map fun r => ((look.count r : ℕ) : F) * ((tab.count r : ℕ) : F)⁻¹ * f r := by
    unfold multiplicities
    rw [List.map_map, List.zipWith_map_left, List.zipWith_self]
    apply List.map_congr_left
    intro r hr
    have h1 := hk look hsub r hr
    have h2 := hk tab (fun _ h => h) r hr
    simp only [Function.comp, h1, h2]
    congr 1
    by_cases hm : key r ∈ look.map key
    · rw [if_pos hm]
      congr 1
      by_cases h : tab.count r = 1
      · simp [h]
      · simp [h]
    · rw [if_neg hm]
      have : look.count r = 0 := by rw [← h1]; exact List.count_eq_zero.2 hm
      simp [this]
  rw [hz, sum_map_list, sum_map_list]
  have hss : look.toFinset ⊆ tab.toFinset := by
    intro r hr
    rw [List.mem_toFinset] at hr ⊢
    exact hsub r hr
  rw [← Finset.sum_subset hss]
  · refine Finset.sum_congr rfl fun r hr => ?_
    have := hcount r (hsub r (List.mem_toFinset.1 hr))
    field_simp
  · intro r _ hr
    have : look.count r = 0 := List.count_eq_zero.2 (by simpa using hr)
    simp [this]

/-- The numerators of the entries with fingerprint `l0`. -/
theorem entries_filter_sum (A B : List (F × F)) (l0 : F) (hA : ∀ e ∈ A, e.1 = -1) (hB : ∀ e ∈ B, e.2 ≠ l0) :
    (((A ++ B).filter fun e => e.2 = l0).map Prod.fst).sum = -((A.filter fun e => e.2 = l0).length : F) := by
  have hB' : B.filter (fun e => e.2 = l0) = [] := by
    rw [List.filter_eq_nil_iff]
    intro e he
    simpa using hB e he
  rw [List.filter_append, hB', List.append_nil]
  clear hB hB'
  induction A with
  | nil => simp
  | cons a as ih =>
    have := ih (fun e he => hA e (by simp [he]))
    have ha := hA a (by simp)
    by_cases h : a.2 = l0
    · rw [List.filter_cons_of_pos (by simpa using h), List.map_cons, List.sum_cons, this, ha, List.length_cons]
      push_cast; ring
    · rw [List.filter_cons_of_neg (by simpa using h)]; exact this

theorem zip_eq_zipWith_map {α β γ δ : Type} (g : α × β → γ) (h : γ → δ) (a : List α) (b : List β) :
    ((a.zip b).map g).map h = List.zipWith (fun x y => h (g (x, y))) a b := by
  rw [List.map_map, List.zip, List.map_zipWith]
  rfl

/-- Sum of the fractions of a table with honest multiplicities. -/
theorem table_sum (ι : ℤ → F) (w : ℕ) (hw0 : 0 < w) (key : List ℤ → ℤ) (tab look : List (List ℤ)) (c csc : F)
    (hw : ∀ r ∈ tab, r.length = w) (hsub : ∀ r ∈ look, r ∈ tab)
    (hinj : ∀ r ∈ tab, ∀ r' ∈ tab, key r = key r' → r = r') (hcount : ∀ r ∈ tab, ((tab.count r : ℕ) : F) ≠ 0) :
    fracSum (withConst c (tableEntries (intCols ι w tab, multiplicities (tab.map key) (look.map key), csc)))
      = (look.map fun r => (c + fingerprint csc (r.map ι))⁻¹).sum := by
  rw [← multiplicities_cancel key tab look (fun r => (c + fingerprint csc (r.map ι))⁻¹) hsub hinj hcount]
  unfold fracSum withConst tableEntries
  simp only [headD_intCols ι w hw0]
  rw [map_range_getElem tab _ (fun r => fingerprint csc (r.map ι))
    (fun i hi => by rw [rowOf_intCols ι w tab hw i hi]), zip_eq_zipWith_map, List.zipWith_map_right]
  simp only [div_eq_mul_inv]

theorem lookup_sum (ι : ℤ → F) (w : ℕ) (hw0 : 0 < w) (look : List (List ℤ)) (c csc : F)
    (hw : ∀ r ∈ look, r.length = w) :
    fracSum (withConst c (lookupEntries (intCols ι w look, csc)))
      = -(look.map fun r => (c + fingerprint csc (r.map ι))⁻¹).sum := by
  unfold fracSum withConst lookupEntries
  simp only [headD_intCols ι w hw0]
  rw [List.map_map, List.map_map, map_range_getElem look _ (fun r => -(c + fingerprint csc (r.map ι))⁻¹)
    (fun i hi => by simp only [Function.comp, rowOf_intCols ι w look hw i hi, neg_div, one_div])]
  clear hw
  induction look with
  | nil => simp
  | cons a as ih => simp only [List.map_cons, List.sum_cons, ih]; ring

theorem withConst_append (c : F) (a b : List (F × F)) : withConst c (a ++ b) = withConst c a ++ withConst c b := by
  simp [withConst]

theorem withConst_flatMap {α : Type} (c : F) (l : List α) (g : α → List (F × F)) :
    fracSum (withConst c (l.flatMap g)) = (l.map fun x => fracSum (withConst c (g x))).sum := by
  induction l with
  | nil => simp [withConst, fracSum]
  | cons a as ih => rw [List.flatMap_cons, withConst_append, fracSum_append, ih, List.map_cons, List.sum_cons]

theorem intCols_ok (ι : ℤ → F) (w : ℕ) (rows : List (List ℤ)) : ∀ c ∈ intCols ι w rows, c.length = rows.length := by
  intro c hc
  obtain ⟨j, -, rfl⟩ := List.mem_map.1 hc
  simp

theorem intCols_ne (ι : ℤ → F) (w : ℕ) (hw : 0 < w) (rows : List (List ℤ)) : intCols ι w rows ≠ [] := by
  intro h
  have := congrArg List.length h
  simp [intCols] at this
  omega

theorem mem_lookupEntries (ι : ℤ → F) (w : ℕ) (hw0 : 0 < w) (look : List (List ℤ)) (csc : F)
    (hw : ∀ r ∈ look, r.length = w) (e : F × F) (he : e ∈ lookupEntries (intCols ι w look, csc)) :
    ∃ r ∈ look, e.2 = fingerprint csc (r.map ι) := by
  unfold lookupEntries at he
  simp only [headD_intCols ι w hw0] at he
  obtain ⟨i, hi, rfl⟩ := List.mem_map.1 he
  have hi := List.mem_range.1 hi
  exact ⟨look[i], List.getElem_mem hi, by simp only [rowOf_intCols ι w look hw i hi]⟩

theorem mem_tableEntries (ι : ℤ → F) (w : ℕ) (hw0 : 0 < w) (tab : List (List ℤ)) (m : List F) (csc : F)
    (hw : ∀ r ∈ tab, r.length = w) (e : F × F) (he : e ∈ tableEntries (intCols ι w tab, m, csc)) :
    ∃ r ∈ tab, e.2 = fingerprint csc (r.map ι) := by
  unfold tableEntries at he
  simp only [headD_intCols ι w hw0] at he
  obtain ⟨i, hi, hie⟩ := List.mem_map.1 (List.of_mem_zip (show (e.1, e.2) ∈ _ from he)).2
  have hi := List.mem_range.1 hi
  exact ⟨tab[i], List.getElem_mem hi, by rw [← hie, rowOf_intCols ι w tab hw i hi]⟩

theorem sum_map_neg {α : Type} (l : List α) (f : α → F) : (l.map fun x => -f x).sum = -(l.map f).sum := by
  induction l with
  | nil => simp
  | cons a as ih => simp only [List.map_cons, List.sum_cons, ih]; ring

end Lemmas
