import Verif.Lemmas.Tables

/-!
C23: the verifier's closed forms for table columns. C24: the tables contain the graph of their function. C60: relu.
-/

namespace Props
open Model Spec Lemmas

/-- Tables with the parameters the code builds: GELU tables are symmetric with power-of-two bounds
(layers/activation.rs:639-640), clamping tables have at least one bit, error tables a positive error. -/
def TableOk : TableType → Prop
  | .gelu _ mn mx => ∃ k : ℕ, mn = -(2 ^ k) ∧ mx = 2 ^ k
  | .clamping size => 1 ≤ size
  | .error _ err => 0 < err
  | _ => True

theorem ilog2_sym (k : ℕ) : ilog2 ((2 : ℤ) ^ k - -(2 ^ k) + 1).toNat = some (k + 1) := by
  have h1 : ((2 : ℤ) ^ k - -(2 ^ k) + 1) = ((2 ^ (k + 1) + 1 : ℕ) : ℤ) := by push_cast; ring
  rw [h1, Int.toNat_natCast]
  have hp : 2 ≤ 2 ^ (k + 1) := by
    calc 2 = 2 ^ 1 := by norm_num
      _ ≤ _ := Nat.pow_le_pow_right (by norm_num) (by omega)
  unfold ilog2
  rw [if_neg (by omega)]
  congr 1
  rw [Nat.log2_eq_log_two]
  apply Nat.log_eq_of_pow_le_of_lt_pow
  · omega
  · rw [pow_succ 2 (k + 1)]; omega

/-- C23: for every table, the verifier's closed forms followed by the value of the committed column are exactly the
multilinear extensions of the table's columns, at every point of the right length; and for such points the closed
forms are defined. -/
theorem C23_closed_forms {F : Type} [Field F] (p : ℕ) [CharP F p] (env : TableType → ℤ → ℤ) (bl : ℕ) (hbl : 1 ≤ bl)
    (t : TableType) (ht : TableOk t) (n : ℕ) (hn : tableVars bl t = some n) (hp : 2 ^ n ≤ p) (point : List F)
    (hpt : point.length = n) :
    ∃ cs, evaluateTableColumns p bl t point = some cs ∧
      cs ++ (committedColumn p env bl t).toList.map (fun col => mle col point)
        = (tableColumns p env bl t).map fun col => mle col point := by
  have hpz : ((2 ^ n : ℕ) : ℤ) ≤ p := by exact_mod_cast hp
  push_cast at hpz
  have hp1 : 1 ≤ p := le_trans Nat.one_le_two_pow hp
  have sym : ∀ k : ℕ, k + 1 = n → ∀ r : List F, r.length = n →
      mle ((irange (-(2 ^ k)) (2 ^ k)).map (toField p)) r = pointSum r - ((2 ^ k : ℕ) : F) := by
    intro k hk r hr
    have e : (2 : ℤ) ^ n = 2 * 2 ^ k := by rw [← hk, pow_succ]; ring
    have hpos : (0 : ℤ) < 2 ^ k := by positivity
    rw [mle_irange p n (-(2 ^ k)) (2 ^ k) (by rw [e]; ring) r hr (by omega) (by omega)]
    push_cast
    ring
  have nat : ∀ r : List F, r.length = n → mle ((irange 0 (2 ^ n)).map (toField p)) r = pointSum r := by
    intro r hr
    have hpos : (0 : ℤ) < 2 ^ n := by positivity
    rw [mle_irange p n 0 (2 ^ n) (by ring) r hr (by simp) (by omega)]
    simp
  cases t with
  | relu =>
    simp only [tableVars, Option.some.injEq] at hn
    subst hn
    refine ⟨[pointSum point - ((2 ^ (bl - 1) : ℕ) : F), reluSecond point], by simp [evaluateTableColumns, hpt], ?_⟩
    simp only [committedColumn, Option.toList_none, List.map_nil, List.append_nil, tableColumns, numColumns, tableRows,
      List.range_succ, List.range_zero, List.map_append, List.map_cons, List.nil_append, List.map_map, List.singleton_append]
    congr 1
    · have hq : qMin bl - 1 = -(2 ^ (bl - 1)) := by unfold qMin; ring
      have hq2 : qMax bl + 1 = 2 ^ (bl - 1) := by unfold qMax; ring
      rw [← sym (bl - 1) (by omega) point hpt, hq, hq2]
      rfl
    · congr 1
      rw [← mle_relu p bl hbl point hpt hp]
      rfl
  | gelu m mn mx =>
    obtain ⟨k, rfl, rfl⟩ := ht
    simp only [tableVars, ilog2_sym, Option.some.injEq] at hn
    refine ⟨[pointSum point - ((2 ^ k : ℕ) : F)], ?_, ?_⟩
    · simp only [evaluateTableColumns, ilog2_sym, Option.bind_eq_bind, Option.bind_some]
      rw [if_pos (by omega)]
      simp
    · simp only [committedColumn, Option.toList_some, List.map_nil, tableColumns, numColumns, tableRows,
        List.range_succ, List.range_zero, List.map_append, List.map_cons, List.nil_append, List.map_map, List.singleton_append]
      congr 1
      rw [← sym k hn point hpt]
      rfl
  | range =>
    simp only [tableVars, Option.some.injEq] at hn
    subst hn
    refine ⟨[pointSum point], by simp [evaluateTableColumns, hpt], ?_⟩
    simp only [committedColumn, Option.toList_none, List.map_nil, List.append_nil, tableColumns, numColumns, tableRows,
      List.range_succ, List.range_zero, List.map_cons, List.nil_append, List.map_map]
    congr 1
    rw [← nat point hpt]
    rfl
  | clamping size =>
    simp only [tableVars, Option.some.injEq] at hn
    subst hn
    have h1 : 1 ≤ size := ht
    have hlen : ((irange (-(2 ^ (size - 1))) (2 ^ (size - 1))).map fun i => (toField p (clampTo bl i) : F)).length = 2 ^ size := by
      rw [List.length_map, irange_length]
      have : (2 : ℤ) ^ (size - 1) - -(2 ^ (size - 1)) = ((2 ^ size : ℕ) : ℤ) := by
        push_cast
        obtain ⟨s, rfl⟩ : ∃ s, size = s + 1 := ⟨size - 1, by omega⟩
        rw [pow_succ]
        simp only [Nat.add_sub_cancel]
        ring
      rw [this, Int.toNat_natCast]
    refine ⟨_, by
      simp only [evaluateTableColumns]
      rw [if_pos hpt, show Mle.ofEvals size _ = some ⟨size, _⟩ from by unfold Mle.ofEvals; rw [if_pos hlen]]
      simp only [Option.bind_some]
      rw [evaluate_eq ⟨size, _⟩ hlen point hpt], ?_⟩
    simp only [committedColumn, Option.toList_none, List.map_nil, List.append_nil, tableColumns, numColumns, tableRows,
      List.range_succ, List.range_zero, List.map_append, List.map_cons, List.nil_append, List.map_map, List.singleton_append]
    congr 1
    rw [← sym (size - 1) (by omega) point hpt]
    rfl
  | softmax tmp size bkm =>
    simp only [tableVars, Option.some.injEq] at hn
    subst hn
    refine ⟨[pointSum point], by simp [evaluateTableColumns, hpt], ?_⟩
    simp only [committedColumn, Option.toList_some, List.map_nil, tableColumns, numColumns, tableRows,
      List.range_succ, List.range_zero, List.map_append, List.map_cons, List.nil_append, List.map_map, List.singleton_append]
    congr 1
    rw [← nat point hpt]
    rfl
  | error one err =>
    simp only [tableVars] at hn
    refine ⟨[], rfl, ?_⟩
    simp only [committedColumn, tableColumns, numColumns, tableRows, hn, List.nil_append,
      List.range_succ, List.range_zero, List.map_cons, List.map_nil, Option.toList_some]
    congr 2
    rw [List.map_take, List.map_append, List.map_map, List.map_replicate]
    rfl
  | zero bits =>
    simp only [tableVars, Option.some.injEq] at hn
    subst hn
    refine ⟨_, by
      simp only [evaluateTableColumns]
      rw [if_pos hpt, zero_fold], ?_⟩
    simp only [committedColumn, Option.toList_none, List.map_nil, List.append_nil, tableColumns, numColumns, tableRows,
      List.range_succ, List.range_zero, List.map_append, List.map_cons, List.nil_append, List.map_map, List.singleton_append]
    congr 1
    · rw [zero_add, ← pointSum_eq, ← nat point hpt]
      rfl
    · congr 1
      rw [one_mul, ← mle_zero_out p bits hp1 point hpt]
      rfl
  | invSqrt eps bits =>
    simp only [tableVars, Option.some.injEq] at hn
    refine ⟨[pointSum point - ((2 ^ (2 * (bl - 1)) : ℕ) : F)], by simp [evaluateTableColumns, hpt, hn], ?_⟩
    simp only [committedColumn, Option.toList_some, List.map_nil, tableColumns, numColumns, tableRows,
      List.range_succ, List.range_zero, List.map_append, List.map_cons, List.nil_append, List.map_map, List.singleton_append]
    congr 1
    rw [← sym (2 * (bl - 1)) hn point hpt]
    rfl

/-- C23, what the verifier concludes: if the table check accepts the claimed evaluations at a point of the right
length, and the claim on the committed column (if any) is true, then every column claim is true, and there is exactly
one claim per column. -/
theorem C23_verify_table {F : Type} [Field F] [DecidableEq F] (p : ℕ) [CharP F p] (env : TableType → ℤ → ℤ) (bl : ℕ)
    (hbl : 1 ≤ bl) (t : TableType) (ht : TableOk t) (n : ℕ) (hn : tableVars bl t = some n) (hp : 2 ^ n ≤ p)
    (point evals : List F) (hpt : point.length = n) (m : F) (c : Option F)
    (h : verifyTableClaims p bl t point evals = some (m, c))
    (hc : ∀ v col, c = some v → committedColumn p env bl t = some col → v = mle col point) :
    evals = m :: (tableColumns p env bl t).map fun col => mle col point := by
  obtain ⟨cs, hcs, heq⟩ := C23_closed_forms p env bl hbl t ht n hn hp point hpt
  rw [← heq]
  unfold verifyTableClaims at h
  cases evals with
  | nil => simp at h
  | cons m' cols =>
    simp only [hcs] at h
    by_cases hcond : cs.length + (if hasTableClaim t then 1 else 0) + 1 = (m' :: cols).length ∧
        (cols.zip cs).all (fun ce => decide (ce.1 = ce.2)) = true
    swap
    · rw [if_neg hcond] at h; simp at h
    rw [if_pos hcond] at h
    obtain ⟨hlen, hall⟩ := hcond
    simp only [Option.some.injEq, Prod.mk.injEq] at h
    obtain ⟨rfl, hcl⟩ := h
    congr 1
    have hpre : ∀ (cols cs : List F), cs.length ≤ cols.length → (cols.zip cs).all (fun ce => decide (ce.1 = ce.2)) = true →
        cols = cs ++ cols.drop cs.length := by
      intro cols cs
      induction cs generalizing cols with
      | nil => intro _ _; simp
      | cons a cs ih =>
        intro hl ha
        cases cols with
        | nil => simp at hl
        | cons b cols =>
          simp only [List.zip_cons_cons, List.all_cons, Bool.and_eq_true, decide_eq_true_eq] at ha
          simp only [List.length_cons, List.drop_succ_cons, List.cons_append]
          rw [ha.1]
          congr 1
          exact ih cols (by simpa using hl) ha.2
    simp only [List.length_cons] at hlen
    have hp' := hpre cols cs (by omega) hall
    rw [hp']
    congr 1
    cases hcc : committedColumn (F := F) p env bl t with
    | none =>
      have : hasTableClaim t = false := by
        clear * - hcc hn
        cases t <;> simp only [committedColumn, hasTableClaim, tableVars, reduceCtorEq] at hcc hn ⊢
        rw [hn] at hcc
        simp at hcc
      rw [this] at hlen
      simp only [Bool.false_eq_true, if_false] at hlen
      simp only [Option.toList_none, List.map_nil]
      apply List.drop_eq_nil_of_le
      omega
    | some col =>
      have : hasTableClaim t = true := by
        clear * - hcc
        cases t <;> simp only [committedColumn, hasTableClaim, reduceCtorEq] at hcc ⊢
      rw [this] at hlen hcl
      simp only [if_true] at hlen hcl
      simp only [Option.toList_some, List.map_cons, List.map_nil]
      have hd : (cols.drop cs.length).length = 1 := by rw [List.length_drop]; omega
      obtain ⟨v, hv⟩ := List.length_eq_one_iff.mp hd
      rw [hv] at hp' ⊢
      have hlast : (m' :: cols).getLast? = some v := by
        rw [hp', ← List.cons_append, List.getLast?_append]
        simp
      rw [hlast] at hcl
      rw [hc v col hcl.symm hcc]

/-- The tables really have `2^n` rows, so that the columns are tables of `n` variables. -/
theorem C23_rows (env : TableType → ℤ → ℤ) (bl : ℕ) (hbl : 1 ≤ bl) (t : TableType) (ht : TableOk t) (n : ℕ)
    (hn : tableVars bl t = some n) : (tableRows env bl t).length = 2 ^ n := by
  have sym : ∀ k : ℕ, ((2 : ℤ) ^ k - -(2 ^ k)).toNat = 2 ^ (k + 1) := by
    intro k
    have : ((2 : ℤ) ^ k - -(2 ^ k)) = ((2 ^ (k + 1) : ℕ) : ℤ) := by push_cast; ring
    rw [this, Int.toNat_natCast]
  have nat : ∀ k : ℕ, ((2 : ℤ) ^ k - 0).toNat = 2 ^ k := by
    intro k
    have : ((2 : ℤ) ^ k - 0) = ((2 ^ k : ℕ) : ℤ) := by push_cast; ring
    rw [this, Int.toNat_natCast]
  cases t with
  | relu =>
    simp only [tableVars, Option.some.injEq] at hn
    have hq : qMin bl - 1 = -(2 ^ (bl - 1)) := by unfold qMin; ring
    have hq2 : qMax bl + 1 = 2 ^ (bl - 1) := by unfold qMax; ring
    simp only [tableRows, List.length_map, irange_length]
    rw [hq, hq2, sym, ← hn]
    congr 1
    omega
  | gelu m mn mx =>
    obtain ⟨k, rfl, rfl⟩ := ht
    simp only [tableVars, ilog2_sym, Option.some.injEq] at hn
    simp only [tableRows, List.length_map, irange_length]
    rw [sym, hn]
  | range =>
    simp only [tableVars, Option.some.injEq] at hn
    simp only [tableRows, List.length_map, irange_length]
    rw [nat, hn]
  | clamping size =>
    simp only [tableVars, Option.some.injEq] at hn
    have h1 : 1 ≤ size := ht
    simp only [tableRows, List.length_map, irange_length]
    rw [sym, ← hn]
    congr 1
    omega
  | softmax tmp size bkm =>
    simp only [tableVars, Option.some.injEq] at hn
    simp only [tableRows, List.length_map, irange_length]
    rw [nat, hn]
  | error one err =>
    simp only [tableVars] at hn
    simp only [tableRows, hn, List.length_take, List.length_append, List.length_map, List.length_replicate]
    omega
  | zero bits =>
    simp only [tableVars, Option.some.injEq] at hn
    simp only [tableRows, List.length_map, irange_length]
    rw [nat, hn]
  | invSqrt eps bits =>
    simp only [tableVars, Option.some.injEq] at hn
    simp only [tableRows, List.length_map, irange_length]
    rw [sym, hn]

/-- Instance over ℤ/2^31-1: a relu table of 3 bits and a clamping table of 5 bits. -/
example : evaluateTableColumns (F := ℚ) 0 3 .relu [1, 1, 1] = some [3, 3] ∧
    evaluateTableColumns (F := ℚ) 0 3 .relu [1, 0, 0] = some [-3, 0] ∧
    TableOk (.clamping 5) ∧ TableOk (.gelu 3 (-(2 ^ 7)) (2 ^ 7)) ∧ tableVars 8 (.gelu 3 (-(2 ^ 7)) (2 ^ 7)) = some 8 := by
  refine ⟨by decide +kernel, by decide +kernel, (by decide : 1 ≤ 5), ⟨7, rfl, rfl⟩, by decide +kernel⟩

/-! ### C24 -/

/-- C24: exactly which rows each table has. -/
theorem C24_rows (env : TableType → ℤ → ℤ) (bl : ℕ) (x y : ℤ) :
    ([x, y] ∈ tableRows env bl .relu ↔ -(2 ^ (bl - 1)) ≤ x ∧ x < 2 ^ (bl - 1) ∧ y = max x 0) ∧
    (∀ size, [x, y] ∈ tableRows env bl (.clamping size) ↔
      -(2 ^ (size - 1)) ≤ x ∧ x < 2 ^ (size - 1) ∧ y = max (-(2 ^ (bl - 1)) + 1) (min (2 ^ (bl - 1) - 1) x)) ∧
    ([x] ∈ tableRows env bl .range ↔ 0 ≤ x ∧ x < 2 ^ bl) ∧
    (∀ bits, [x, y] ∈ tableRows env bl (.zero bits) ↔ 0 ≤ x ∧ x < 2 ^ bits ∧ y = if x = 0 then 1 else 0) ∧
    (∀ m mn mx, [x, y] ∈ tableRows env bl (.gelu m mn mx) ↔ mn ≤ x ∧ x < mx ∧ y = env (.gelu m mn mx) x) ∧
    (∀ tmp size bkm, [x, y] ∈ tableRows env bl (.softmax tmp size bkm) ↔
      0 ≤ x ∧ x < 2 ^ size ∧ y = env (.softmax tmp size bkm) x) ∧
    (∀ eps bits, [x, y] ∈ tableRows env bl (.invSqrt eps bits) ↔
      -(2 ^ (2 * (bl - 1))) ≤ x ∧ x < 2 ^ (2 * (bl - 1)) ∧ y = env (.invSqrt eps bits) x) := by
  have key : ∀ (f : ℤ → ℤ) (lo hi : ℤ), [x, y] ∈ (irange lo hi).map (fun i => [i, f i]) ↔ lo ≤ x ∧ x < hi ∧ y = f x := by
    intro f lo hi
    simp only [List.mem_map, mem_irange, List.cons.injEq, and_true]
    constructor
    · rintro ⟨a, ⟨h1, h2⟩, rfl, rfl⟩
      exact ⟨h1, h2, rfl⟩
    · rintro ⟨h1, h2, h3⟩
      exact ⟨x, ⟨h1, h2⟩, rfl, h3.symm⟩
  have hrelu : reluApply x = max x 0 := by unfold reluApply; split <;> omega
  refine ⟨?_, ?_, ?_, ?_, ?_, ?_, ?_⟩
  · simp only [tableRows]
    rw [key, hrelu]
    unfold qMin qMax
    constructor <;> rintro ⟨h1, h2, h3⟩ <;> refine ⟨by omega, by omega, h3⟩
  · intro size
    simp only [tableRows]
    rw [key, clampTo_eq]
    rfl
  · simp only [tableRows, List.mem_map, mem_irange, List.cons.injEq, and_true]
    constructor
    · rintro ⟨a, h, rfl⟩; exact h
    · intro h; exact ⟨x, h, rfl⟩
  · intro bits
    simp only [tableRows]
    rw [key]
    by_cases hx : x = 0 <;> simp [hx]
  · intro m mn mx
    simp only [tableRows]
    rw [key]
  · intro tmp size bkm
    simp only [tableRows]
    rw [key]
  · intro eps bits
    simp only [tableRows]
    rw [key]

/-- C24: the single-column encoding used for counting is injective as long as inputs are below `2^31` in absolute
value: a pair's encoding is among those of a two-column table's rows iff the pair is a row. -/
theorem C24_merged (env : TableType → ℤ → ℤ) (bl : ℕ) (t : TableType) (h2 : numColumns t = 2)
    (hdom : ∀ a b, [a, b] ∈ tableRows env bl t → |a| < 2 ^ 31) (x y : ℤ) (hx : |x| < 2 ^ 31) :
    x + y * columnSeparator ∈ mergedColumn env bl t ↔ [x, y] ∈ tableRows env bl t := by
  have hshape : ∀ row ∈ tableRows env bl t, ∃ a b, row = [a, b] := by
    intro row hrow
    cases t <;> simp only [numColumns] at h2 <;> (try omega) <;> simp only [tableRows, List.mem_map] at hrow <;>
      (obtain ⟨a, -, rfl⟩ := hrow; exact ⟨_, _, rfl⟩)
  unfold mergedColumn
  rw [List.mem_map]
  constructor
  · rintro ⟨row, hrow, he⟩
    obtain ⟨a, b, rfl⟩ := hshape row hrow
    have ha := hdom a b hrow
    simp only [mergeRow, columnSeparator] at he
    rw [abs_lt] at ha hx
    have hby : b = y := by omega
    have hax : a = x := by omega
    rw [← hax, ← hby]
    exact hrow
  · intro h
    exact ⟨_, h, rfl⟩

/-- The domain condition of `C24_merged` for the tables with fixed domain: bit length at most 16, clamping and zero
tables up to 31 bits. -/
theorem C24_domains (env : TableType → ℤ → ℤ) (bl : ℕ) (hbl : bl ≤ 16) (a b : ℤ) :
    ([a, b] ∈ tableRows env bl .relu → |a| < 2 ^ 31) ∧
    (∀ size, size ≤ 31 → [a, b] ∈ tableRows env bl (.clamping size) → |a| < 2 ^ 31) ∧
    (∀ bits, bits ≤ 31 → [a, b] ∈ tableRows env bl (.zero bits) → |a| < 2 ^ 31) := by
  obtain ⟨h1, h2, -, h4, -⟩ := C24_rows env bl a b
  refine ⟨?_, ?_, ?_⟩
  · intro h
    obtain ⟨l, r, -⟩ := h1.mp h
    have : (2 : ℤ) ^ (bl - 1) ≤ 2 ^ 30 := pow_le_pow_right₀ (by norm_num) (by omega)
    rw [abs_lt]; constructor <;> omega
  · intro size hs h
    obtain ⟨l, r, -⟩ := (h2 size).mp h
    have : (2 : ℤ) ^ (size - 1) ≤ 2 ^ 30 := pow_le_pow_right₀ (by norm_num) (by omega)
    rw [abs_lt]; constructor <;> omega
  · intro bits hs h
    obtain ⟨l, r, -⟩ := (h4 bits).mp h
    have : (2 : ℤ) ^ bits ≤ 2 ^ 31 := pow_le_pow_right₀ (by norm_num) (by omega)
    rw [abs_lt]; constructor <;> omega

theorem ceilLog2_pow' (k : ℕ) : ceilLog2 (2 ^ k) = some k := by
  obtain ⟨j, hj⟩ : ∃ j, ceilLog2 (2 ^ k) = some j := ceilLog2_some (Nat.one_le_two_pow)
  obtain ⟨h1, h2⟩ := ceilLog2_spec hj
  have e1 : k ≤ j := (Nat.pow_le_pow_iff_right (by norm_num)).mp h1
  have e2 : j < k + 1 := by
    apply (Nat.pow_lt_pow_iff_right (a := 2) (by norm_num)).mp
    rw [pow_succ]; omega
  rw [hj]
  congr 1
  omega

/-- C24 fails for the error table: when twice the allowed error is a power of two the largest allowed value is
missing. -/
theorem C24_error_table_max_false (env : TableType → ℤ → ℤ) (bl k : ℕ) (one : ℤ) :
    [one + 2 ^ k] ∉ tableRows env bl (.error one (2 ^ k)) ∧ |(one + 2 ^ k) - one| ≤ 2 ^ k := by
  refine ⟨?_, by rw [add_sub_cancel_left, abs_of_pos (by positivity)]⟩
  simp only [tableRows]
  have h1 : 2 * ((2 : ℤ) ^ k).toNat = 2 ^ (k + 1) := by
    have : ((2 : ℤ) ^ k) = ((2 ^ k : ℕ) : ℤ) := by push_cast; rfl
    rw [this, Int.toNat_natCast, pow_succ]; ring
  rw [h1, ceilLog2_pow']
  simp only
  have hlen : ((irange (one - 2 ^ k) (one + 2 ^ k + 1)).map (fun e => [e])).length = 2 ^ (k + 1) + 1 := by
    rw [List.length_map, irange_length]
    have : one + 2 ^ k + 1 - (one - 2 ^ k) = ((2 ^ (k + 1) + 1 : ℕ) : ℤ) := by push_cast; ring
    rw [this, Int.toNat_natCast]
  rw [List.take_append_of_le_length (by omega)]
  intro hmem
  rw [List.mem_take_iff_getElem] at hmem
  obtain ⟨i, hi, he⟩ := hmem
  simp only [List.getElem_map, List.cons.injEq, and_true] at he
  have hi' : i < 2 ^ (k + 1) := by omega
  unfold irange at he
  simp only [List.getElem_map, List.getElem_range] at he
  have hz : ((i : ℤ)) < 2 ^ (k + 1) := by exact_mod_cast hi'
  rw [pow_succ] at hz
  omega

/-- C24 fails for the error table otherwise too: it is padded with zeros, so zero is accepted although it is not within
the allowed error. -/
theorem C24_error_table_zero_false (env : TableType → ℤ → ℤ) (bl : ℕ) (one err : ℤ) (h0 : 0 < err) (h1 : err < one)
    (hpow : ∀ k : ℕ, 2 * err ≠ 2 ^ k) : [0] ∈ tableRows env bl (.error one err) ∧ ¬ |0 - one| ≤ err := by
  refine ⟨?_, by rw [zero_sub, abs_neg, abs_of_pos (by omega)]; omega⟩
  simp only [tableRows]
  obtain ⟨k, hk⟩ : ∃ k, ceilLog2 (2 * err.toNat) = some k := ceilLog2_some (by omega)
  obtain ⟨s1, s2⟩ := ceilLog2_spec hk
  rw [hk]
  simp only
  have hne : 2 * err.toNat ≠ 2 ^ k := by
    intro h
    apply hpow k
    have : ((2 * err.toNat : ℕ) : ℤ) = ((2 ^ k : ℕ) : ℤ) := by rw [h]
    push_cast at this
    omega
  have hlt : 2 * err.toNat + 1 < 2 ^ k := by
    cases k with
    | zero => simp at s1; omega
    | succ k => rw [pow_succ] at s1 hne ⊢; omega
  have hlen : ((irange (one - err) (one + err + 1)).map (fun e => [e])).length = 2 * err.toNat + 1 := by
    rw [List.length_map, irange_length]; omega
  rw [List.take_append]
  apply List.mem_append_right
  rw [List.take_replicate, hlen]
  exact List.mem_replicate.mpr ⟨by omega, rfl⟩

/-- Both kinds occur: error 128 and error 100, with one = 2^12. -/
example (env : TableType → ℤ → ℤ) : [4096 + 128] ∉ tableRows env 8 (.error 4096 128) :=
  (C24_error_table_max_false env 8 7 4096).1

example (env : TableType → ℤ → ℤ) : [0] ∈ tableRows env 8 (.error 4096 100) := by
  refine (C24_error_table_zero_false env 8 4096 100 (by norm_num) (by norm_num) ?_).1
  intro k hk
  rcases lt_or_ge k 8 with h | h
  · interval_cases k <;> norm_num at hk
  · have : (2 : ℤ) ^ 8 ≤ 2 ^ k := pow_le_pow_right₀ (by norm_num) h
    omega

/-! ### C60 -/

/-- C60: relu of every quantized value is `max x 0` and the pair is a row of the relu table; outputs stay in range. -/
theorem C60_relu (env : TableType → ℤ → ℤ) (bl : ℕ) (x : ℤ) (h1 : qMin bl ≤ x) (h2 : x ≤ qMax bl) :
    reluApply x = max x 0 ∧ [x, reluApply x] ∈ tableRows env bl .relu ∧ 0 ≤ reluApply x ∧ reluApply x ≤ qMax bl := by
  have hrelu : reluApply x = max x 0 := by unfold reluApply; split <;> omega
  have hp : (0 : ℤ) < 2 ^ (bl - 1) := by positivity
  refine ⟨hrelu, ?_, ?_, ?_⟩
  · rw [(C24_rows env bl x (reluApply x)).1]
    unfold qMin at h1
    unfold qMax at h2
    exact ⟨by omega, by omega, hrelu⟩
  · omega
  · rw [hrelu]
    unfold qMax at h2 ⊢
    omega

example : reluApply (-5) = 0 ∧ reluApply 7 = 7 ∧ qMin 8 ≤ -5 ∧ (7 : ℤ) ≤ qMax 8 := by decide +kernel

end Props
