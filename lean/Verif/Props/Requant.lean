import Verif.Props.GraphRun

/-!
C50: inserting requantisation nodes.
-/

namespace Props

open Model Spec Lemmas

variable {L V : Type}

/-- C50, shape: with one requantisation layer for each output of node `id`, the insertion succeeds. The new nodes have new, distinct ids. Every old node keeps its operation;
its inputs are the same except that output `i` of `id` is replaced by the output of the `i`-th new node; nodes other than `id` keep their outputs. The `i`-th new node
has the given layer, takes output `i` of `id`, and its only output goes where output `i` of `id` went, inside and outside. -/
theorem C50_shape (g : Graph L) (hk : (g.map (·.1)).Nodup) (hs : Spec.Symmetric g) (id : ℕ) (n : Node L) (hn : (id, n) ∈ g) (rqs : List L)
    (hlen : rqs.length = n.outputs.length) :
    ∃ (g' : Graph L) (rids : List ℕ), addRequantNodes g rqs id = some (g', rids) ∧ rids.length = n.outputs.length ∧
      g'.map (·.1) = g.map (·.1) ++ rids ∧ (g'.map (·.1)).Nodup ∧
      (∀ x m, (x, m) ∈ g → ∃ m', (x, m') ∈ g' ∧ m'.op = m.op ∧ m'.inputs = m.inputs.map (redirect id rids) ∧ (x ≠ id → m'.outputs = m.outputs)) ∧
      (∀ (i : ℕ) (w : List Edge) (rq : L) (r : ℕ), n.outputs[i]? = some w → rqs[i]? = some rq → rids[i]? = some r →
        (r, (⟨List.replicate w.length ⟨some id, i⟩, [w], rq⟩ : Node L)) ∈ g') := by
  obtain ⟨g', rids, h₁, h₂, h₃, h₄, h₅, h₆⟩ := addRequantNodes_spec hk hs ((mapGet_iff_mem g hk id n).mpr hn) hlen
  have hk' : (g'.map (·.1)).Nodup := by rw [h₃]; exact h₄
  refine ⟨g', rids, h₁, h₂, h₃, hk', ?_, ?_⟩
  · intro x m hm
    obtain ⟨m', a, b, c, d, -⟩ := h₅ x m ((mapGet_iff_mem g hk x m).mpr hm)
    exact ⟨m', (mapGet_iff_mem g' hk' x m').mp a, b, c, d⟩
  · intro i w rq r hw hq hr
    exact (mapGet_iff_mem g' hk' _ _).mp (h₆ i w rq r hw hq hr)

/-- C50: after the insertion every connection is again recorded at both its ends exactly once. -/
theorem C50_symmetric (g : Graph L) (hk : (g.map (·.1)).Nodup) (hs : Spec.Symmetric g) (id : ℕ) (n : Node L) (hn : (id, n) ∈ g) (rqs : List L)
    (hlen : rqs.length = n.outputs.length) (g' : Graph L) (rids : List ℕ) (h : addRequantNodes g rqs id = some (g', rids)) : Spec.Symmetric g' := by
  have hgn := (mapGet_iff_mem g hk id n).mpr hn
  obtain ⟨g₀, rids₀, h₁, h₂, h₃, h₄, h₅, h₆⟩ := addRequantNodes_spec hk hs hgn hlen
  rw [h] at h₁
  cases h₁
  have hk' : (g'.map (·.1)).Nodup := by rw [h₃]; exact h₄
  have hnd : rids.Nodup := (List.nodup_append.mp h₄).2.1
  have hfresh : ∀ r ∈ rids, r ∉ g.map (·.1) := fun r hr hg => (List.nodup_append.mp h₄).2.2 r hg r hr rfl
  have hidg : id ∈ g.map (·.1) := (mapGet_isSome_iff id g).mp (by rw [hgn]; rfl)
  have hidr : id ∉ rids := fun hr => hfresh id hr hidg
  have old : ∀ x m', mapGet x g' = some m' → x ∈ g.map (·.1) → ∃ m, mapGet x g = some m ∧ m'.op = m.op ∧ m'.inputs = m.inputs.map (redirect id rids) ∧
        (x ≠ id → m'.outputs = m.outputs) ∧
        (x = id → m'.outputs.length = m.outputs.length ∧ ∀ (i : ℕ) (w : List Edge) (r : ℕ), m.outputs[i]? = some w → rids[i]? = some r →
          m'.outputs[i]? = some ((List.range w.length).map fun t => ⟨some r, t⟩)) := by
    intro x m' hm' hx
    obtain ⟨m, hm⟩ := Option.isSome_iff_exists.mp ((mapGet_isSome_iff x g).mpr hx)
    obtain ⟨m'', a, b⟩ := h₅ x m hm
    rw [hm'] at a
    cases a
    exact ⟨m, hm, b⟩
  have new : ∀ x m', mapGet x g' = some m' → x ∉ g.map (·.1) → ∃ (i : ℕ) (w : List Edge) (rq : L), rids[i]? = some x ∧ n.outputs[i]? = some w ∧
      m' = ⟨List.replicate w.length ⟨some id, i⟩, [w], rq⟩ := by
    intro x m' hm' hx
    have hxr : x ∈ rids := by
      have : x ∈ g'.map (·.1) := (mapGet_isSome_iff x g').mp (by rw [hm']; rfl)
      rw [h₃] at this
      exact (List.mem_append.mp this).resolve_left hx
    obtain ⟨i, hi⟩ := List.getElem?_of_mem hxr
    have hil : i < n.outputs.length := h₂ ▸ (List.getElem?_eq_some_iff.mp hi).1
    refine ⟨i, n.outputs[i], rqs[i], hi, List.getElem?_eq_getElem hil, ?_⟩
    have := h₆ i _ _ x (List.getElem?_eq_getElem hil) (List.getElem?_eq_getElem (by omega)) hi
    rw [hm'] at this
    exact Option.some.inj this
  -- where an input of the new graph comes from
  have src : ∀ (a i b j : ℕ), (∃ m', mapGet b g' = some m' ∧ m'.inputs[j]? = some ⟨some a, i⟩) ↔
      (a ∈ g.map (·.1) ∧ a ≠ id ∧ ∃ m, mapGet b g = some m ∧ m.inputs[j]? = some ⟨some a, i⟩) ∨
      (i = 0 ∧ ∃ k, rids[k]? = some a ∧ ∃ m, mapGet b g = some m ∧ m.inputs[j]? = some ⟨some id, k⟩) ∨
      (a = id ∧ ∃ w, rids[i]? = some b ∧ n.outputs[i]? = some w ∧ j < w.length) := by
    intro a i b j
    constructor
    · rintro ⟨m', hm', hj⟩
      by_cases hb : b ∈ g.map (·.1)
      · obtain ⟨m, hm, -, hin, -⟩ := old b m' hm' hb
        rw [hin, List.getElem?_map, Option.map_eq_some_iff] at hj
        obtain ⟨e, hje, he⟩ := hj
        unfold redirect at he
        by_cases hei : e.node = some id
        · rw [if_pos hei, Edge.mk.injEq] at he
          exact Or.inr (Or.inl ⟨he.2.symm, e.index, he.1, m, hm, by rw [hje]; cases e; simp_all⟩)
        · rw [if_neg hei] at he
          subst he
          left
          obtain ⟨na, wa, hna, -⟩ := hs.inp b m j a i ((mapGet_iff_mem g hk b m).mp hm) hje
          exact ⟨List.mem_map.mpr ⟨(a, na), hna, rfl⟩, fun he => hei (by rw [he]), m, hm, hje⟩
      · obtain ⟨k, w, rq, hk₁, hk₂, rfl⟩ := new b m' hm' hb
        simp only [List.getElem?_replicate] at hj
        by_cases hjw : j < w.length
        · rw [if_pos hjw, Option.some.injEq, Edge.mk.injEq, Option.some.injEq] at hj
          obtain ⟨rfl, rfl⟩ := hj
          exact Or.inr (Or.inr ⟨rfl, w, hk₁, hk₂, hjw⟩)
        · rw [if_neg hjw] at hj
          cases hj
    · rintro (⟨ha, hai, m, hm, hj⟩ | ⟨rfl, k, hka, m, hm, hj⟩ | ⟨rfl, w, hb, hw, hj⟩)
      · obtain ⟨m', hm', -, hin, -⟩ := h₅ b m hm
        refine ⟨m', hm', ?_⟩
        rw [hin, List.getElem?_map, hj]
        simp [redirect, hai]
      · obtain ⟨m', hm', -, hin, -⟩ := h₅ b m hm
        refine ⟨m', hm', ?_⟩
        rw [hin, List.getElem?_map, hj]
        simp [redirect, hka]
      · have hil : i < rqs.length := by rw [hlen]; exact (List.getElem?_eq_some_iff.mp hw).1
        refine ⟨_, h₆ i w rqs[i] b hw (List.getElem?_eq_getElem hil) hb, ?_⟩
        simp [List.getElem?_replicate, hj]
  have hget : ∀ (b j a i : ℕ), (∃ m' : Node L, (b, m') ∈ g' ∧ m'.inputs[j]? = some ⟨some a, i⟩) ↔ ∃ m', mapGet b g' = some m' ∧ m'.inputs[j]? = some ⟨some a, i⟩ := by
    intro b j a i
    constructor
    · rintro ⟨m', x, y⟩; exact ⟨m', (mapGet_iff_mem g' hk' b m').mpr x, y⟩
    · rintro ⟨m', x, y⟩; exact ⟨m', (mapGet_iff_mem g' hk' b m').mp x, y⟩
  have orig : ∀ (a : ℕ) (m : Node L) (i : ℕ) (w : List Edge), mapGet a g = some m → m.outputs[i]? = some w → ∀ b j : ℕ,
      w.count ⟨some b, j⟩ = if ∃ m : Node L, mapGet b g = some m ∧ m.inputs[j]? = some ⟨some a, i⟩ then 1 else 0 := by
    intro a m i w hm hw b j
    have := hs.out a m i w ((mapGet_iff_mem g hk a m).mp hm) hw b j
    by_cases hex : ∃ m : Node L, mapGet b g = some m ∧ m.inputs[j]? = some ⟨some a, i⟩
    · rw [if_pos hex]
      obtain ⟨m, x, y⟩ := hex
      exact this.1 ⟨m, (mapGet_iff_mem g hk b m).mp x, y⟩
    · rw [if_neg hex]
      exact this.2 fun ⟨m, x, y⟩ => hex ⟨m, (mapGet_iff_mem g hk b m).mpr x, y⟩
  have outCount : ∀ (a : ℕ) (m' : Node L) (i : ℕ) (w : List Edge), mapGet a g' = some m' → m'.outputs[i]? = some w → ∀ b j : ℕ,
      w.count ⟨some b, j⟩ = if ∃ m' : Node L, mapGet b g' = some m' ∧ m'.inputs[j]? = some ⟨some a, i⟩ then 1 else 0 := by
    intro a m' i w hm' hw b j
    by_cases ha : a ∈ g.map (·.1)
    · have har : ∀ k : ℕ, rids[k]? ≠ some a := fun k hk => hfresh a (List.mem_of_getElem? hk) ha
      obtain ⟨m, hm, -, -, hne, heq⟩ := old a m' hm' ha
      by_cases hai : a = id
      · subst hai
        rw [hgn] at hm
        cases hm
        obtain ⟨hol, hout⟩ := heq rfl
        have hil : i < n.outputs.length := by rw [← hol]; exact (List.getElem?_eq_some_iff.mp hw).1
        obtain ⟨r, hr⟩ : ∃ r, rids[i]? = some r := ⟨_, List.getElem?_eq_getElem (by omega)⟩
        have hw' := hout i n.outputs[i] r (List.getElem?_eq_getElem hil) hr
        rw [hw, Option.some.injEq] at hw'
        have hnd' : w.Nodup := by
          rw [hw']
          exact List.Nodup.map (fun x y hxy => by simpa using hxy) List.nodup_range
        rw [hnd'.count]
        congr 1
        rw [src, hw', eq_iff_iff]
        simp only [List.mem_map, List.mem_range, Edge.mk.injEq, Option.some.injEq]
        constructor
        · rintro ⟨t, ht, rfl, rfl⟩
          exact Or.inr (Or.inr ⟨trivial, _, hr, List.getElem?_eq_getElem hil, ht⟩)
        · rintro (⟨-, h, -⟩ | ⟨-, k, hk, -⟩ | ⟨-, w₂, hb, hw₂, hj⟩)
          · exact absurd rfl h
          · exact absurd hk (har k)
          · rw [List.getElem?_eq_getElem hil] at hw₂
            rw [hr] at hb
            cases hw₂
            cases hb
            exact ⟨j, hj, rfl, rfl⟩
      · rw [hne hai] at hw
        rw [orig a m i w hm hw b j]
        congr 1
        rw [src, eq_iff_iff]
        constructor
        · intro h; exact Or.inl ⟨ha, hai, h⟩
        · rintro (⟨-, -, h⟩ | ⟨-, k, hk, -⟩ | ⟨h, -⟩)
          · exact h
          · exact absurd hk (har k)
          · exact absurd h hai
    · obtain ⟨k, wk, rq, hk₁, hk₂, rfl⟩ := new a m' hm' ha
      have hi0 : i = 0 ∧ wk = w := by
        cases i with
        | zero => simpa using hw
        | succ i => simp at hw
      obtain ⟨rfl, rfl⟩ := hi0
      rw [orig id n k wk hgn hk₂ b j]
      congr 1
      rw [src, eq_iff_iff]
      constructor
      · intro h; exact Or.inr (Or.inl ⟨rfl, k, hk₁, h⟩)
      · rintro (⟨h, -⟩ | ⟨-, k', hk', h⟩ | ⟨h, -⟩)
        · exact absurd h ha
        · have : k' = k := by
            obtain ⟨l₁, e₁⟩ := List.getElem?_eq_some_iff.mp hk₁
            obtain ⟨l₂, e₂⟩ := List.getElem?_eq_some_iff.mp hk'
            exact (hnd.getElem_inj_iff).mp (e₂.trans e₁.symm)
          rw [← this]; exact h
        · exact absurd (h ▸ hidg) ha
  constructor
  · intro a m' i w hm' hw b j
    have := outCount a m' i w ((mapGet_iff_mem g' hk' a m').mpr hm') hw b j
    rw [hget]
    constructor
    · intro hex; rw [this, if_pos hex]
    · intro hex; rw [this, if_neg hex]
  · intro b m' j a i hm' hj
    rcases (src a i b j).mp ⟨m', (mapGet_iff_mem g' hk' b m').mpr hm', hj⟩ with ⟨ha, hai, m, hm, hj'⟩ | ⟨rfl, k, hka, m, hm, hj'⟩ | ⟨rfl, w, hb, hw, -⟩
    · obtain ⟨na, wa, hna, hwa⟩ := hs.inp b m j a i ((mapGet_iff_mem g hk b m).mp hm) hj'
      obtain ⟨na', hna', -, -, hne, -⟩ := h₅ a na ((mapGet_iff_mem g hk a na).mpr hna)
      exact ⟨na', wa, (mapGet_iff_mem g' hk' a na').mp hna', by rw [hne hai]; exact hwa⟩
    · have hkl : k < n.outputs.length := h₂ ▸ (List.getElem?_eq_some_iff.mp hka).1
      exact ⟨_, n.outputs[k], (mapGet_iff_mem g' hk' _ _).mp (h₆ k _ _ a (List.getElem?_eq_getElem hkl) (List.getElem?_eq_getElem (by omega)) hka), rfl⟩
    · obtain ⟨m₁, hm₁, -, -, -, heq⟩ := h₅ a n hgn
      exact ⟨m₁, _, (mapGet_iff_mem g' hk' _ _).mp hm₁, (heq rfl).2 i w b hw hb⟩

/-- The value an input edge carries when the outputs of node `id` are passed through functions on their way, output `i` through `f i`. -/
def CarriesThrough (id : ℕ) (f : ℕ → V → V) (input : List V) (val : ℕ → List V) (e : Edge) (v : V) : Prop :=
  if e.node = some id then ∃ u, (val id)[e.index]? = some u ∧ v = f e.index u else Carries input val e v

/-- C50, meaning: when the requantisation layers apply functions to each of their inputs, the values in the new graph are those of the old graph with the outputs of `id`
passed through these functions on their way to the nodes that use them; nothing else changes. -/
theorem C50_dataflow (eval : L → List V → Option (List V)) (f : ℕ → V → V) (g : Graph L) (hk : (g.map (·.1)).Nodup) (hs : Spec.Symmetric g) (id : ℕ) (n : Node L)
    (hn : (id, n) ∈ g) (rqs : List L) (hlen : rqs.length = n.outputs.length) (hf : ∀ (i : ℕ) (rq : L), rqs[i]? = some rq → ∀ ins, eval rq ins = some (ins.map (f i)))
    (g' : Graph L) (rids : List ℕ) (h : addRequantNodes g rqs id = some (g', rids)) (input : List V) (val : ℕ → List V) (hval : Dataflow eval g' input val) :
    (∀ b m, (b, m) ∈ g → ∃ ins, List.Forall₂ (CarriesThrough id f input val) m.inputs ins ∧ eval m.op ins = some (val b)) ∧
    ∀ (i : ℕ) (w : List Edge) (r : ℕ), n.outputs[i]? = some w → w ≠ [] → rids[i]? = some r → ∃ u, (val id)[i]? = some u ∧ val r = List.replicate w.length (f i u) := by
  obtain ⟨g₀, rids₀, h₁, h₂, h₃, h₄, h₅, h₆⟩ := C50_shape g hk hs id n hn rqs hlen
  rw [h] at h₁
  cases h₁
  have hreq : ∀ (i : ℕ) (w : List Edge) (r : ℕ), n.outputs[i]? = some w → w ≠ [] → rids[i]? = some r →
      ∃ u, (val id)[i]? = some u ∧ val r = List.replicate w.length (f i u) := by
    intro i w r hw hne hr
    have hil : i < rqs.length := by rw [hlen]; exact (List.getElem?_eq_some_iff.mp hw).1
    obtain ⟨ins, hins, hev⟩ := hval r _ (h₆ i w rqs[i] r hw (List.getElem?_eq_getElem hil) hr)
    simp only at hins hev
    rw [hf i _ (List.getElem?_eq_getElem hil), Option.some.injEq] at hev
    have hlw : 0 < w.length := List.length_pos_iff.mpr hne
    have hlin := hins.length_eq
    rw [List.length_replicate] at hlin
    have hcar : ∀ (t : ℕ) (ht : t < ins.length), (val id)[i]? = some ins[t] := by
      intro t ht
      have := hins.get (i := t) (by simp; omega) ht
      simpa [Carries] using this
    refine ⟨ins[0], hcar 0 (by omega), ?_⟩
    rw [← hev]
    apply List.ext_getElem (by simp; omega)
    intro t ht₁ ht₂
    simp only [List.getElem_map, List.getElem_replicate]
    have e₁ := hcar t (by simpa using ht₁)
    rw [hcar 0 (by omega), Option.some.injEq] at e₁
    rw [e₁]
  refine ⟨?_, hreq⟩
  intro b m hb
  obtain ⟨m', hm', hop, hin, -⟩ := h₅ b m hb
  obtain ⟨ins, hins, hev⟩ := hval b m' hm'
  refine ⟨ins, ?_, by rw [← hop]; exact hev⟩
  rw [hin, List.forall₂_map_left_iff] at hins
  have hstep : ∀ e ∈ m.inputs, ∀ v, Carries input val (redirect id rids e) v → CarriesThrough id f input val e v := by
    intro e he v hc
    unfold redirect at hc
    unfold CarriesThrough
    by_cases hei : e.node = some id
    · rw [if_pos hei] at hc ⊢
      obtain ⟨j, hj⟩ := List.getElem?_of_mem he
      have hj' : m.inputs[j]? = some ⟨some id, e.index⟩ := by rw [hj]; cases e; simp_all
      obtain ⟨na, wa, hna, hwa⟩ := hs.inp b m j id e.index hb hj'
      have : na = n := by
        have e₁ := (mapGet_iff_mem g hk id na).mpr hna
        rw [(mapGet_iff_mem g hk id n).mpr hn] at e₁
        exact (Option.some.inj e₁).symm
      subst this
      have hil := (List.getElem?_eq_some_iff.mp hwa).1
      obtain ⟨r, hr⟩ : ∃ r, rids[e.index]? = some r := ⟨_, List.getElem?_eq_getElem (by omega)⟩
      have hne : wa ≠ [] := by
        rintro rfl
        have := (hs.out id na e.index [] hn hwa b j).1 ⟨m, hb, hj'⟩
        simp at this
      obtain ⟨u, hu, hvr⟩ := hreq e.index wa r hwa hne hr
      refine ⟨u, hu, ?_⟩
      rw [hr] at hc
      simp only [Carries, hvr] at hc
      exact (List.eq_of_mem_replicate (List.mem_of_getElem? hc))
    · rw [if_neg hei] at hc ⊢
      exact hc
  clear hev hin
  generalize m.inputs = l at hins hstep
  induction hins with
  | nil => exact .nil
  | cons hd _ ih => exact .cons (hstep _ (by simp) _ hd) (ih fun e he => hstep e (List.mem_cons_of_mem _ he))

/-- The examples' layers: `none` is the sum of the inputs plus one, `some c` divides each input by `c`. -/
def requantEval : Option ℕ → List ℕ → Option (List ℕ)
  | none, ins => some [ins.sum + 1]
  | some c, ins => some (ins.map (· / c))

/-- `toyBuilt` with these layers. -/
def toyRequant : Graph (Option ℕ) := toyBuilt.map fun x => (x.1, ⟨x.2.inputs, x.2.outputs, none⟩)

example : (toyRequant.map (·.1)).Nodup ∧ (addRequantNodes toyRequant [some 2] 0).isSome ∧
    ((addRequantNodes toyRequant [some 2] 0).bind fun r => runTrace requantEval r.1 [10]) = some [(0, [11]), (3, [5, 5]), (1, [6]), (2, [12])] := by decide

/-- C50 fails for a node one of whose outputs is both used inside and an output of the model, or is an output of the model twice: whatever the layers are that requantise
each of their inputs, the new model cannot be run. -/
theorem C50_fan_out_false (eval : L → List V → Option (List V)) (g : Graph L) (hk : (g.map (·.1)).Nodup) (hs : Spec.Symmetric g) (id : ℕ) (n : Node L)
    (hn : (id, n) ∈ g) (rqs : List L) (hlen : rqs.length = n.outputs.length) (hf : ∀ rq ∈ rqs, ∀ ins outs, eval rq ins = some outs → outs.length = ins.length)
    (g' : Graph L) (rids : List ℕ) (h : addRequantNodes g rqs id = some (g', rids)) (w : List Edge) (hw : w ∈ n.outputs) (hw2 : 2 ≤ w.length) (k : ℕ)
    (hout : (⟨none, k⟩ : Edge) ∈ w) (input : List V) : runModel eval g' input = none := by
  obtain ⟨g₀, rids₀, h₁, h₂, h₃, h₄, h₅, h₆⟩ := C50_shape g hk hs id n hn rqs hlen
  rw [h] at h₁
  cases h₁
  obtain ⟨i, hi⟩ := List.getElem?_of_mem hw
  have hil := (List.getElem?_eq_some_iff.mp hi).1
  obtain ⟨r, hr⟩ : ∃ r, rids[i]? = some r := ⟨_, List.getElem?_eq_getElem (by omega)⟩
  have hrq : rqs[i]? = some (rqs[i]'(by omega)) := List.getElem?_eq_getElem (by omega)
  have hnode := h₆ i w _ r hi hrq hr
  cases hrun : runModel eval g' input with
  | none => rfl
  | some res =>
    exfalso
    unfold runModel at hrun
    simp only [Option.bind_eq_bind, Option.bind_eq_some_iff, Option.some.injEq] at hrun
    obtain ⟨t, ht, acc, hacc, outs, ho, -⟩ := hrun
    obtain ⟨-, a₂, -⟩ := collectNodes_spec t _ _ _ hacc (by simp)
    obtain ⟨vals, hv, hvl⟩ := a₂ _ (List.mem_filter.mpr ⟨hnode, by
      simp only [List.all_cons, List.all_nil, Bool.and_true, List.any_eq_true]
      exact ⟨_, hout, rfl⟩⟩)
    simp only [List.length_cons, List.length_nil] at hvl
    obtain ⟨hresp, -⟩ := C48_forward g' h₄
    obtain ⟨-, b₂, b₃⟩ := runTrace_spec eval g' input (forwardOrder g') [] t hresp.once (fun _ _ => rfl) ht
    have hrf : r ∈ forwardOrder g' := by
      have := (b₂ r).mp (by rw [hv]; rfl)
      simpa [mapGet] using this
    obtain ⟨m, ins, out, hm, hins, hev, hout'⟩ := b₃ r hrf
    rw [(mapGet_iff_mem g' h₄ r _).mpr hnode] at hm
    cases hm
    rw [hv] at hout'
    cases hout'
    have e₁ := hf _ (List.mem_of_getElem? hrq) ins vals hev
    have e₂ := hins.length_eq
    simp only [List.length_replicate] at e₂
    omega

/-- A model whose first node's output is both used by the second node and output 1. It can be run; after requantising the first node it cannot. -/
def fanOutGraph : Graph (Option ℕ) :=
  [(0, ⟨[⟨none, 0⟩], [[⟨some 1, 0⟩, ⟨none, 1⟩]], none⟩), (1, ⟨[⟨some 0, 0⟩], [[⟨none, 0⟩]], none⟩)]

theorem fanOutGraph_built : Built (fun _ _ => 1) 1 fanOutGraph := by
  have h₁ : Built (fun _ _ => 1) 1 (addConsecutive (fun _ _ => 1) 1 ([] : Graph (Option ℕ)) none none).1 :=
    .consecutive .empty (prev := none) (op := none) (id := 0) rfl
  have h₂ := Built.node h₁ (inputs := [⟨some 0, 0⟩]) (op := none) (id := 1)
    (g' := [(0, ⟨[⟨none, 0⟩], [[⟨some 1, 0⟩]], none⟩), (1, ⟨[⟨some 0, 0⟩], [[]], none⟩)]) (by decide)
  exact Built.route h₂ (edges := some [⟨some 1, 0⟩, ⟨some 0, 0⟩]) (by decide)

example : (runModel requantEval fanOutGraph [10]).map (·.2) = some [12, 11] ∧
    ((addRequantNodes fanOutGraph [some 2] 0).bind fun r => runModel requantEval r.1 [10]) = none := by decide

/-- C50 fails when there are fewer requantisation layers than outputs: the insertion succeeds, but the remaining outputs are disconnected while the nodes that use them
still refer to them, so the edges are no longer recorded at both ends. -/
theorem C50_too_few_false :
    let g : Graph (Option ℕ) := [(0, ⟨[⟨none, 0⟩], [[⟨some 1, 0⟩], [⟨some 1, 1⟩]], none⟩), (1, ⟨[⟨some 0, 0⟩, ⟨some 0, 1⟩], [[⟨none, 0⟩]], none⟩)]
    Spec.Symmetric g ∧ ∃ g' rids, addRequantNodes g [some 2] 0 = some (g', rids) ∧ ¬Spec.Symmetric g' := by
  constructor
  · have h₁ : Built (fun b k => if b = none ∧ k = 1 then 2 else 1) 1 ([(0, ⟨[⟨none, 0⟩], [[], []], none⟩)] : Graph (Option ℕ)) :=
      .consecutive .empty (prev := none) (op := none) (id := 0) (by decide)
    have h₂ := Built.node h₁ (inputs := [⟨some 0, 0⟩, ⟨some 0, 1⟩]) (op := none) (id := 1)
      (g' := [(0, ⟨[⟨none, 0⟩], [[⟨some 1, 0⟩], [⟨some 1, 1⟩]], none⟩), (1, ⟨[⟨some 0, 0⟩, ⟨some 0, 1⟩], [[]], none⟩)]) (by decide)
    have h₃ := Built.route h₂ (edges := some [⟨some 1, 0⟩])
      (g' := [(0, ⟨[⟨none, 0⟩], [[⟨some 1, 0⟩], [⟨some 1, 1⟩]], none⟩), (1, ⟨[⟨some 0, 0⟩, ⟨some 0, 1⟩], [[⟨none, 0⟩]], none⟩)]) (by decide)
    exact (C49_symmetric _ _ _ h₃).1
  · refine ⟨[(0, ⟨[⟨none, 0⟩], [[⟨some 2, 0⟩], []], none⟩), (1, ⟨[⟨some 2, 0⟩, ⟨some 0, 1⟩], [[⟨none, 0⟩]], none⟩),
      (2, ⟨[⟨some 0, 0⟩], [[⟨some 1, 0⟩]], some 2⟩)], [2], by decide, fun hs => ?_⟩
    have := (hs.out 0 ⟨[⟨none, 0⟩], [[⟨some 2, 0⟩], []], none⟩ 1 [] (by simp) rfl 1 1).1 ⟨⟨[⟨some 2, 0⟩, ⟨some 0, 1⟩], [[⟨none, 0⟩]], none⟩, by simp, rfl⟩
    simp at this

end Props
