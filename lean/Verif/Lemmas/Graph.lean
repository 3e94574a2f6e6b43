import Verif.Lemmas.GraphOrder

namespace Lemmas

open Model Spec

variable {L : Type}

section mapSet
variable {α β : Type} [DecidableEq α]

theorem mapGet_mapSet (k k' : α) (v : β) : ∀ m : List (α × β), mapGet k' (mapSet k v m) = if k' = k then some v else mapGet k' m
  | [] => by
    simp only [mapSet, mapGet, eq_comm]
  | (a, b) :: m => by
    simp only [mapSet]
    by_cases h : a = k
    · subst h
      simp only [if_pos, mapGet]
      by_cases h' : k' = a
      · simp [h']
      · rw [if_neg (fun e => h' e.symm), if_neg h', if_neg (fun e => h' e.symm)]
    · rw [if_neg h]
      simp only [mapGet, mapGet_mapSet k k' v m]
      by_cases h' : a = k'
      · subst h'
        simp [h]
      · simp [h']

theorem mapSet_keys_of_mem (k : α) (v : β) : ∀ m : List (α × β), (mapGet k m).isSome → (mapSet k v m).map (·.1) = m.map (·.1)
  | [], h => by simp [mapGet] at h
  | (a, b) :: m, h => by
    simp only [mapSet]
    by_cases e : a = k
    · subst e; simp
    · rw [if_neg e]
      simp only [mapGet, if_neg e] at h
      simp [mapSet_keys_of_mem k v m h]

theorem mapSet_of_not_mem (k : α) (v : β) : ∀ m : List (α × β), mapGet k m = none → mapSet k v m = m ++ [(k, v)]
  | [], _ => rfl
  | (a, b) :: m, h => by
    simp only [mapSet]
    by_cases e : a = k
    · simp [mapGet, e] at h
    · simp only [mapGet, if_neg e] at h
      simp [e, mapSet_of_not_mem k v m h]

theorem mapGet_isSome_iff (k : α) (m : List (α × β)) : (mapGet k m).isSome ↔ k ∈ m.map (·.1) := by
  rw [mapGet_eq_lookup, ← mem_keys_iff]

theorem mapGet_none_iff (k : α) (m : List (α × β)) : mapGet k m = none ↔ k ∉ m.map (·.1) := by
  rw [mapGet_eq_lookup, lookup_none_iff]

end mapSet

/-- Input `j` of node `b`. -/
def inputAt (g : Graph L) (b j : ℕ) : Option Edge := (mapGet b g).bind fun n => n.inputs[j]?

/-- Output `i` of node `a` exists. -/
def HasOut (g : Graph L) (a i : ℕ) : Prop := ∃ n, mapGet a g = some n ∧ i < n.outputs.length

/-- How often output `i` of node `a` lists `e`. -/
def wireCount (g : Graph L) (a i : ℕ) (e : Edge) : ℕ :=
  ((mapGet a g).map fun n => (n.outputs[i]?.getD []).count e).getD 0

/-- `g'` has the same nodes as `g`, with the same inputs, operations and number of outputs. -/
structure SameShape (g g' : Graph L) : Prop where
  keys : g'.map (·.1) = g.map (·.1)
  node : ∀ a n, mapGet a g = some n → ∃ n', mapGet a g' = some n' ∧ n'.inputs = n.inputs ∧ n'.op = n.op ∧ n'.outputs.length = n.outputs.length

theorem SameShape.refl (g : Graph L) : SameShape g g := ⟨rfl, fun _ n h => ⟨n, h, rfl, rfl, rfl⟩⟩

theorem SameShape.trans {g g' g'' : Graph L} (h : SameShape g g') (h' : SameShape g' g'') : SameShape g g'' :=
  ⟨h'.keys.trans h.keys, fun a n hn => by
    obtain ⟨n', h₁, h₂, h₃, h₄⟩ := h.node a n hn
    obtain ⟨n'', k₁, k₂, k₃, k₄⟩ := h'.node a n' h₁
    exact ⟨n'', k₁, k₂.trans h₂, k₃.trans h₃, k₄.trans h₄⟩⟩

theorem SameShape.none {g g' : Graph L} (h : SameShape g g') (a : ℕ) : mapGet a g' = none ↔ mapGet a g = none := by
  rw [mapGet_none_iff, mapGet_none_iff, h.keys]

theorem SameShape.inputAt {g g' : Graph L} (h : SameShape g g') (b j : ℕ) : inputAt g' b j = inputAt g b j := by
  unfold Lemmas.inputAt
  cases hb : mapGet b g with
  | none => rw [(h.none b).mpr hb]
  | some n =>
    obtain ⟨n', h₁, h₂, -⟩ := h.node b n hb
    simp [h₁, h₂]

theorem SameShape.hasOut {g g' : Graph L} (h : SameShape g g') (a i : ℕ) : HasOut g' a i ↔ HasOut g a i := by
  constructor
  · rintro ⟨n', hn', hi⟩
    cases ha : mapGet a g with
    | none => rw [(h.none a).mpr ha] at hn'; cases hn'
    | some n =>
      obtain ⟨n'', h₁, -, -, h₄⟩ := h.node a n ha
      rw [h₁] at hn'
      cases hn'
      exact ⟨n, ha, h₄ ▸ hi⟩
  · rintro ⟨n, hn, hi⟩
    obtain ⟨n', h₁, -, -, h₄⟩ := h.node a n hn
    exact ⟨n', h₁, h₄ ▸ hi⟩

theorem pushEdge_spec {g g' : Graph L} {a i : ℕ} {e : Edge} (h : pushEdge g a i e = some g') :
    HasOut g a i ∧ SameShape g g' ∧ ∀ a' i' e', wireCount g' a' i' e' = wireCount g a' i' e' + if a' = a ∧ i' = i ∧ e' = e then 1 else 0 := by
  unfold pushEdge at h
  cases ha : mapGet a g with
  | none => rw [ha] at h; simp at h
  | some n =>
    rw [ha] at h
    simp only [Option.bind_eq_bind, Option.bind_some] at h
    by_cases hi : i < n.outputs.length
    · rw [if_pos hi] at h
      cases h
      refine ⟨⟨n, ha, hi⟩, ⟨mapSet_keys_of_mem _ _ _ (by rw [ha]; rfl), ?_⟩, ?_⟩
      · intro b m hm
        rw [mapGet_mapSet]
        by_cases hb : b = a
        · subst hb
          rw [ha] at hm
          cases hm
          exact ⟨_, if_pos rfl, rfl, rfl, by simp⟩
        · exact ⟨m, by rw [if_neg hb, hm], rfl, rfl, rfl⟩
      · intro a' i' e'
        unfold wireCount
        rw [mapGet_mapSet]
        by_cases hb : a' = a
        · subst hb
          rw [if_pos rfl, ha]
          simp only [Option.map_some, Option.getD_some, List.getElem?_modify, true_and]
          by_cases hii : i' = i
          · subst hii
            rw [List.getElem?_eq_getElem hi]
            by_cases hee : e' = e
            · subst hee; simp
            · simp [hee, List.count_cons, List.count_append, Ne.symm hee]
          · have : ¬i = i' := fun q => hii q.symm
            simp [hii, this]
        · simp [hb]
    · rw [if_neg hi] at h; cases h

open Classical in
theorem addEdges_spec (id : ℕ) : ∀ (es : List Edge) (k : ℕ) (g g' : Graph L), addEdges id k es g = (g', true) →
    SameShape g g' ∧ (∀ a i, (⟨some a, i⟩ : Edge) ∈ es → HasOut g a i) ∧
    (∀ a i e, wireCount g' a i e = wireCount g a i e +
      if ∃ j, e = ⟨some id, k + j⟩ ∧ es[j]? = some ⟨some a, i⟩ then 1 else 0)
  | [], k, g, g', h => by
    simp only [addEdges, Prod.mk.injEq, and_true] at h
    subst h
    refine ⟨SameShape.refl g, by simp, by simp⟩
  | e :: es, k, g, g', h => by
    obtain ⟨node, index⟩ := e
    have shift : ∀ (a i : ℕ) (x : Edge), (∃ j, x = ⟨some id, k + j⟩ ∧ (⟨node, index⟩ :: es)[j]? = some ⟨some a, i⟩) ↔
        ((x = ⟨some id, k⟩ ∧ node = some a ∧ index = i) ∨ ∃ j, x = ⟨some id, k + 1 + j⟩ ∧ es[j]? = some ⟨some a, i⟩) := by
      intro a i x
      constructor
      · rintro ⟨j, hx, hj⟩
        cases j with
        | zero => left; exact ⟨hx, by simpa using hj⟩
        | succ j => right; exact ⟨j, by rw [hx]; simp; omega, by simpa using hj⟩
      · rintro (⟨hx, hn, hi⟩ | ⟨j, hx, hj⟩)
        · exact ⟨0, by simp [hx], by simp [hn, hi]⟩
        · exact ⟨j + 1, by rw [hx]; simp; omega, by simpa using hj⟩
    cases node with
    | none =>
      simp only [addEdges] at h
      obtain ⟨i₁, i₂, i₃⟩ := addEdges_spec id es (k + 1) g g' h
      refine ⟨i₁, ?_, ?_⟩
      · intro a i hm
        rcases List.mem_cons.mp hm with hm | hm
        · simp at hm
        · exact i₂ a i hm
      · intro a i x
        rw [i₃ a i x]
        congr 1
        simp [shift]
    | some b =>
      simp only [addEdges] at h
      cases hp : pushEdge g b index ⟨some id, k⟩ with
      | none => rw [hp] at h; simp at h
      | some g₁ =>
        rw [hp] at h
        simp only at h
        obtain ⟨p₁, p₂, p₃⟩ := pushEdge_spec hp
        obtain ⟨i₁, i₂, i₃⟩ := addEdges_spec id es (k + 1) g₁ g' h
        refine ⟨p₂.trans i₁, ?_, ?_⟩
        · intro a i hm
          rcases List.mem_cons.mp hm with hm | hm
          · simp only [Edge.mk.injEq, Option.some.injEq] at hm
            obtain ⟨rfl, rfl⟩ := hm
            exact p₁
          · exact (p₂.hasOut a i).mp (i₂ a i hm)
        · intro a i x
          rw [i₃ a i x, p₃ a i x, Nat.add_assoc]
          congr 1
          rw [if_congr (shift a i x) rfl rfl]
          by_cases h₁ : x = ⟨some id, k⟩
          · subst h₁
            have : ¬∃ j, (⟨some id, k⟩ : Edge) = ⟨some id, k + 1 + j⟩ ∧ es[j]? = some ⟨some a, i⟩ := by
              rintro ⟨j, hj, -⟩
              simp at hj
              omega
            rw [if_neg this]
            simp only [this, or_false, true_and, and_true, Option.some.injEq, add_zero]
            apply if_congr _ rfl rfl
            exact ⟨fun ⟨p, q⟩ => ⟨p.symm, q.symm⟩, fun ⟨p, q⟩ => ⟨p.symm, q.symm⟩⟩
          · simp [h₁]

/-- What holds of every graph built by successful calls. -/
structure GoodGraph (g : Graph L) : Prop where
  keys : (g.map (·.1)).Nodup
  out : ∀ a i, HasOut g a i → ∀ b j, wireCount g a i ⟨some b, j⟩ = if inputAt g b j = some ⟨some a, i⟩ then 1 else 0
  inp : ∀ b j a i, inputAt g b j = some ⟨some a, i⟩ → HasOut g a i
  order : ∀ done x rest, g.map (·.1) = done ++ x :: rest → ∀ j a i, inputAt g x j = some ⟨some a, i⟩ → a ∈ done

theorem GoodGraph.symmetric {g : Graph L} (h : GoodGraph g) : Symmetric g := by
  have hin : ∀ b j e, (∃ m : Node L, (b, m) ∈ g ∧ m.inputs[j]? = some e) ↔ inputAt g b j = some e := by
    intro b j e
    unfold inputAt
    constructor
    · rintro ⟨m, hm, hj⟩
      rw [(mapGet_iff_mem g h.keys b m).mpr hm]
      exact hj
    · intro hb
      cases hg : mapGet b g with
      | none => rw [hg] at hb; cases hb
      | some m => rw [hg] at hb; exact ⟨m, (mapGet_iff_mem g h.keys b m).mp hg, hb⟩
  constructor
  · intro a n i wire hn hi b j
    have hget := (mapGet_iff_mem g h.keys a n).mpr hn
    have hlt : i < n.outputs.length := by
      by_contra hlt
      rw [List.getElem?_eq_none (by omega)] at hi
      cases hi
    have := h.out a i ⟨n, hget, hlt⟩ b j
    unfold wireCount at this
    rw [hget] at this
    simp only [Option.map_some, Option.getD_some, hi] at this
    rw [hin, this]
    exact ⟨fun e => by rw [if_pos e], fun e => by rw [if_neg e]⟩
  · intro b m j a i hm hj
    obtain ⟨n, hn, hlt⟩ := h.inp b j a i ((hin b j _).mp ⟨m, hm, hj⟩)
    exact ⟨n, _, (mapGet_iff_mem g h.keys a n).mp hn, List.getElem?_eq_getElem hlt⟩

theorem good_empty : GoodGraph ([] : Graph L) :=
  ⟨by simp, by rintro a i ⟨n, hn, -⟩; simp [mapGet] at hn, by intro b j a i h; simp [inputAt, mapGet] at h, by simp⟩

theorem good_insert {g g' : Graph L} {id : ℕ} {node : Node L} (hg : GoodGraph g) (hid : mapGet id g = none)
    (hout : ∀ w ∈ node.outputs, w = []) (h : addNodeWithId g id node = (g', true)) : GoodGraph g' := by
  unfold addNodeWithId at h
  dsimp only at h
  obtain ⟨⟨g₁, ok⟩, hr⟩ : ∃ r, r = addEdges id 0 node.inputs g := ⟨_, rfl⟩
  rw [← hr] at h
  cases ok with
  | false => simp at h
  | true =>
    simp only [if_true, Prod.mk.injEq, and_true] at h
    subst h
    obtain ⟨s, hin, hc⟩ := addEdges_spec id node.inputs 0 g g₁ hr.symm
    have hid₁ : mapGet id g₁ = none := (s.none id).mpr hid
    have hget : ∀ x, mapGet x (mapSet id node g₁) = if x = id then some node else mapGet x g₁ := fun x => mapGet_mapSet id x node g₁
    have hinp : ∀ b j, inputAt (mapSet id node g₁) b j = if b = id then node.inputs[j]? else inputAt g b j := by
      intro b j
      rw [← s.inputAt]
      unfold inputAt
      rw [hget]
      split <;> rfl
    have hkeys : (mapSet id node g₁).map (·.1) = g.map (·.1) ++ [id] := by
      rw [mapSet_of_not_mem _ _ _ hid₁, List.map_append, s.keys]
      rfl
    have hnid : ∀ i, ¬HasOut g id i := by
      rintro i ⟨n, hn, -⟩
      rw [hid] at hn
      cases hn
    have hO : ∀ a i, a ≠ id → (HasOut (mapSet id node g₁) a i ↔ HasOut g a i) := by
      intro a i ha
      rw [← s.hasOut]
      unfold HasOut
      rw [hget, if_neg ha]
    refine ⟨?_, ?_, ?_, ?_⟩
    · rw [hkeys]
      refine List.nodup_append.mpr ⟨hg.keys, by simp, ?_⟩
      intro x hx y hy
      simp only [List.mem_singleton] at hy
      subst hy
      rintro rfl
      exact (mapGet_none_iff _ _).mp hid hx
    · intro a i ha b j
      by_cases hai : a = id
      · subst hai
        have h0 : wireCount (mapSet a node g₁) a i ⟨some b, j⟩ = 0 := by
          unfold wireCount
          rw [hget, if_pos rfl]
          simp only [Option.map_some, Option.getD_some]
          cases hw : node.outputs[i]? with
          | none => simp
          | some w => simp [hout w (List.mem_of_getElem? hw)]
        rw [h0, hinp]
        rw [if_neg]
        split
        · intro hj
          exact hnid i (hin a i (List.mem_of_getElem? hj))
        · intro hj
          exact hnid i (hg.inp b j a i hj)
      · have hw : wireCount (mapSet id node g₁) a i ⟨some b, j⟩ = wireCount g₁ a i ⟨some b, j⟩ := by
          unfold wireCount
          rw [hget, if_neg hai]
        rw [hw, hc, hg.out a i ((hO a i hai).mp ha) b j, hinp]
        by_cases hb : b = id
        · subst hb
          have : inputAt g b j = none := by unfold inputAt; rw [hid]; rfl
          rw [this]
          simp
        · rw [if_neg hb]
          have : ¬∃ j_1, (⟨some b, j⟩ : Edge) = ⟨some id, 0 + j_1⟩ ∧ node.inputs[j_1]? = some ⟨some a, i⟩ := by
            rintro ⟨_, e, -⟩
            simp at e
            exact hb e.1
          rw [if_neg this, Nat.add_zero]
    · intro b j a i hb
      rw [hinp] at hb
      have hga : HasOut g a i := by
        split at hb
        · exact hin a i (List.mem_of_getElem? hb)
        · exact hg.inp b j a i hb
      have : a ≠ id := fun e => hnid i (e ▸ hga)
      exact (hO a i this).mpr hga
    · intro done x rest he j a i hx
      rw [hinp] at hx
      rw [hkeys] at he
      by_cases hxid : x = id
      · rw [if_pos hxid] at hx
        obtain ⟨n, hn, -⟩ := hin a i (List.mem_of_getElem? hx)
        have ha : a ∈ g.map (·.1) := (mapGet_isSome_iff _ _).mp (by rw [hn]; rfl)
        have hnx : x ∉ g.map (·.1) := hxid ▸ (mapGet_none_iff _ _).mp hid
        rcases List.append_eq_append_iff.mp he with ⟨l, h₁, h₂⟩ | ⟨l, h₁, h₂⟩
        · rw [h₁]; exact List.mem_append_left _ ha
        · cases l with
          | nil => simp only [List.append_nil] at h₁; rw [← h₁]; exact ha
          | cons y l =>
            simp only [List.cons_append, List.cons.injEq] at h₂
            obtain ⟨rfl, -⟩ := h₂
            exact absurd (by rw [h₁]; simp) hnx
      · rw [if_neg hxid] at hx
        rcases List.append_eq_append_iff.mp he with ⟨l, h₁, h₂⟩ | ⟨l, h₁, h₂⟩
        · cases l with
          | nil =>
            simp only [List.nil_append, List.cons.injEq] at h₂
            exact absurd h₂.1.symm hxid
          | cons y l =>
            simp at h₂
        · cases l with
          | nil =>
            simp only [List.nil_append, List.cons.injEq] at h₂
            exact absurd h₂.1 hxid
          | cons y l =>
            simp only [List.cons_append, List.cons.injEq] at h₂
            obtain ⟨rfl, -⟩ := h₂
            exact hg.order done x l h₁ j a i hx

theorem good_of_sameShape {g g' : Graph L} (hg : GoodGraph g) (s : SameShape g g')
    (hw : ∀ a i b j, wireCount g' a i ⟨some b, j⟩ = wireCount g a i ⟨some b, j⟩) : GoodGraph g' := by
  refine ⟨s.keys ▸ hg.keys, ?_, ?_, ?_⟩
  · intro a i ha b j
    rw [hw, s.inputAt]
    exact hg.out a i ((s.hasOut a i).mp ha) b j
  · intro b j a i hb
    rw [s.inputAt] at hb
    exact (s.hasOut a i).mpr (hg.inp b j a i hb)
  · intro done x rest he j a i hx
    rw [s.inputAt] at hx
    exact hg.order done x rest (s.keys ▸ he) j a i hx

theorem routeEdges_spec : ∀ (es : List Edge) (k : ℕ) (g g' : Graph L), routeEdges k es g = (g', true) →
    SameShape g g' ∧ ∀ a i b j, wireCount g' a i ⟨some b, j⟩ = wireCount g a i ⟨some b, j⟩
  | [], k, g, g', h => by
    simp only [routeEdges, Prod.mk.injEq, and_true] at h
    subst h
    exact ⟨SameShape.refl g, fun _ _ _ _ => rfl⟩
  | e :: es, k, g, g', h => by
    simp only [routeEdges] at h
    cases he : e.node with
    | none => rw [he] at h; simp at h
    | some a =>
      rw [he] at h
      simp only at h
      cases hp : pushEdge g a e.index ⟨none, k⟩ with
      | none => rw [hp] at h; simp at h
      | some g₁ =>
        rw [hp] at h
        simp only at h
        obtain ⟨-, p₂, p₃⟩ := pushEdge_spec hp
        obtain ⟨i₁, i₂⟩ := routeEdges_spec es (k + 1) g₁ g' h
        refine ⟨p₂.trans i₁, fun a' i' b j => ?_⟩
        rw [i₂, p₃]
        simp

theorem routeOutput_spec {g g' : Graph L} {edges : Option (List Edge)} (hk : (g.map (·.1)).Nodup) (h : routeOutput g edges = (g', true)) :
    SameShape g g' ∧ ∀ a i b j, wireCount g' a i ⟨some b, j⟩ = wireCount g a i ⟨some b, j⟩ := by
  cases edges with
  | some es => exact routeEdges_spec es 0 g g' h
  | none =>
    simp only [routeOutput] at h
    cases hf : g.find? (fun x => x.2.outputs.all (· == [])) with
    | none => rw [hf] at h; simp at h
    | some x =>
      rw [hf] at h
      simp only [Prod.mk.injEq, and_true] at h
      obtain ⟨id, n⟩ := x
      have hget := (mapGet_iff_mem g hk id n).mpr (List.mem_of_find?_eq_some hf)
      have hall := List.find?_some hf
      simp only [List.all_eq_true, beq_iff_eq] at hall
      subst h
      refine ⟨⟨mapSet_keys_of_mem _ _ _ (by rw [hget]; rfl), ?_⟩, ?_⟩
      · intro a m hm
        rw [mapGet_mapSet]
        by_cases ha : a = id
        · subst ha
          rw [hget] at hm
          cases hm
          exact ⟨_, if_pos rfl, rfl, rfl, by simp⟩
        · exact ⟨m, by rw [if_neg ha, hm], rfl, rfl, rfl⟩
      · intro a i b j
        unfold wireCount
        rw [mapGet_mapSet]
        by_cases ha : a = id
        · subst ha
          rw [if_pos rfl, hget]
          simp only [Option.map_some, Option.getD_some, List.getElem?_mapIdx]
          cases hw : n.outputs[i]? with
          | none => simp
          | some w => simp [hall w (List.mem_of_getElem? hw)]
        · rw [if_neg ha]

theorem freshId_spec (g : Graph L) : ∃ id, freshId g = some id ∧ mapGet id g = none := by
  unfold freshId
  cases hf : (List.range (g.length + 1)).find? (fun i => (mapGet i g).isNone) with
  | some id =>
    refine ⟨id, rfl, ?_⟩
    have := List.find?_some hf
    simpa using this
  | none =>
    exfalso
    have hall := List.find?_eq_none.mp hf
    have hsub : List.range (g.length + 1) ⊆ g.map (·.1) := by
      intro i hi
      have := hall i hi
      rw [← mapGet_isSome_iff, ← Option.ne_none_iff_isSome]
      simpa using this
    have := (List.nodup_range.subperm hsub).length_le
    simp at this

theorem addNode_spec {g g' : Graph L} {node : Node L} {id : ℕ} (h : addNode g node = (g', some id)) :
    mapGet id g = none ∧ addNodeWithId g id node = (g', true) := by
  unfold addNode at h
  obtain ⟨id', h₁, h₂⟩ := freshId_spec g
  rw [h₁] at h
  simp only at h
  obtain ⟨⟨g₁, ok⟩, hr⟩ : ∃ r, r = addNodeWithId g id' node := ⟨_, rfl⟩
  rw [← hr] at h
  cases ok with
  | false => simp at h
  | true =>
    simp only [if_true, Prod.mk.injEq, Option.some.injEq] at h
    obtain ⟨rfl, rfl⟩ := h
    exact ⟨h₂, hr.symm⟩

theorem new_outputs (numOutputs : L → ℕ → ℕ) (inputs : List Edge) (op : L) : ∀ w ∈ (Node.new numOutputs inputs op).outputs, w = [] := by
  intro w hw
  exact List.eq_of_mem_replicate hw

theorem built_good {numOutputs : L → ℕ → ℕ} {numInputs : ℕ} {g : Graph L} (h : Built numOutputs numInputs g) : GoodGraph g := by
  induction h with
  | empty => exact good_empty
  | node _ h ih =>
    obtain ⟨h₁, h₂⟩ := addNode_spec h
    exact good_insert ih h₁ (new_outputs _ _ _) h₂
  | @consecutive g g' op prev id _ h ih =>
    unfold addConsecutive at h
    cases prev with
    | none =>
      obtain ⟨h₁, h₂⟩ := addNode_spec h
      exact good_insert ih h₁ (new_outputs _ _ _) h₂
    | some a =>
      simp only at h
      cases ha : mapGet a g with
      | none => rw [ha] at h; simp at h
      | some n =>
        rw [ha] at h
        obtain ⟨h₁, h₂⟩ := addNode_spec h
        exact good_insert ih h₁ (new_outputs _ _ _) h₂
  | withId _ hid h ih =>
    refine good_insert ih ?_ (new_outputs _ _ _) h
    rw [mapGet_none_iff]
    intro hm
    obtain ⟨x, hx, rfl⟩ := List.mem_map.mp hm
    exact hid x.2 hx
  | route _ h ih =>
    obtain ⟨h₁, h₂⟩ := routeOutput_spec ih.keys h
    exact good_of_sameShape ih h₁ h₂

/-- A graph whose nodes only take inputs from nodes before them has no cycle. -/
theorem good_no_cycle {g : Graph L} (h : GoodGraph g) (x : ℕ) (hx : ∃ n, (x, n) ∈ g) : ¬ReachesCycle (TakesFrom g) x := by
  refine not_reachesCycle_of_order (TakesFrom g) (g.map (·.1)) ?_ x ?_
  · intro done y rest he z hyz
    obtain ⟨⟨n, hn, e, hem, hez⟩, -⟩ := hyz
    obtain ⟨j, hj⟩ := List.getElem?_of_mem hem
    obtain ⟨node, index⟩ := e
    simp only at hez
    subst hez
    refine h.order done y rest he j z index ?_
    unfold inputAt
    rw [(mapGet_iff_mem g h.keys y n).mpr hn]
    exact hj
  · obtain ⟨n, hn⟩ := hx
    exact List.mem_map.mpr ⟨(x, n), hn, rfl⟩

end Lemmas
