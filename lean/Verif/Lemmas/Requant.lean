import Verif.Lemmas.GraphRun

namespace Lemmas

open Model Spec

variable {L : Type}

theorem mapSet_self {α β : Type} [DecidableEq α] (k : α) (v : β) : ∀ m : List (α × β), mapGet k m = some v → mapSet k v m = m
  | (a, b) :: m, h => by
    simp only [mapGet] at h
    simp only [mapSet]
    by_cases e : a = k
    · simp only [e, if_true, Option.some.injEq] at h
      simp [e, h]
    · rw [if_neg e] at h
      rw [if_neg e, mapSet_self k v m h]

theorem mapSet_mapSet {α β : Type} [DecidableEq α] (k : α) (v w : β) : ∀ m : List (α × β), mapSet k v (mapSet k w m) = mapSet k v m
  | [] => by simp [mapSet]
  | (a, b) :: m => by
    simp only [mapSet]
    by_cases e : a = k
    · simp [e, mapSet]
    · simp [e, mapSet, mapSet_mapSet k v w m]

theorem addEdges_replicate (id i r : ℕ) : ∀ (c k : ℕ) (g : Graph L) (n : Node L), mapGet id g = some n → i < n.outputs.length →
    addEdges r k (List.replicate c ⟨some id, i⟩) g =
      (mapSet id { n with outputs := n.outputs.modify i (· ++ (List.range c).map fun t => ⟨some r, k + t⟩) } g, true)
  | 0, k, g, n, hn, hi => by
    simp only [List.replicate_zero, addEdges, List.range_zero, List.map_nil, List.append_nil, Prod.mk.injEq, and_true]
    have : n.outputs.modify i (fun x => x) = n.outputs := List.modify_id _ _
    rw [this]
    exact (mapSet_self id n g hn).symm
  | c + 1, k, g, n, hn, hi => by
    have hp : pushEdge g id i ⟨some r, k⟩ = some (mapSet id { n with outputs := n.outputs.modify i (· ++ [⟨some r, k⟩]) } g) := by
      simp [pushEdge, hn, hi]
    simp only [List.replicate_succ, addEdges, hp]
    rw [addEdges_replicate id i r c (k + 1) _ { n with outputs := n.outputs.modify i (· ++ [⟨some r, k⟩]) }
      (by rw [mapGet_mapSet, if_pos rfl]) (by simpa using hi), mapSet_mapSet]
    congr 3
    simp only [List.modify_modify_eq]
    congr 1
    funext w
    simp only [Function.comp, List.append_assoc, List.range_succ_eq_map, List.map_cons, List.map_map, List.singleton_append, Nat.add_zero]
    congr 2
    apply List.map_congr_left
    intro t _
    simp only [Function.comp, Nat.succ_eq_add_one, Edge.mk.injEq, true_and]
    omega

theorem addRequantNode_spec (id i : ℕ) (w : List Edge) (rq : L) (g : Graph L) (n : Node L) (hn : mapGet id g = some n) (hi : i < n.outputs.length) :
    ∃ g' r, addNode g (requantNode id i w rq) = (g', some r) ∧ r ∉ g.map (·.1) ∧ g'.map (·.1) = g.map (·.1) ++ [r] ∧
      ∀ x, mapGet x g' = if x = r then some (requantNode id i w rq)
        else if x = id then some { n with outputs := n.outputs.modify i (· ++ (List.range w.length).map fun t => ⟨some r, t⟩) } else mapGet x g := by
  obtain ⟨r, h₁, h₂⟩ := freshId_spec g
  have hr := (mapGet_none_iff r g).mp h₂
  have he := addEdges_replicate id i r w.length 0 g n hn hi
  have hin : (requantNode id i w rq).inputs = List.replicate w.length ⟨some id, i⟩ := by
    simp [requantNode, List.map_const']
  have hrid : r ≠ id := by
    rintro rfl
    rw [h₂] at hn
    cases hn
  simp only [Nat.zero_add] at he
  refine ⟨mapSet r (requantNode id i w rq)
      (mapSet id { n with outputs := n.outputs.modify i (· ++ (List.range w.length).map fun t => ⟨some r, t⟩) } g), r, ?_, hr, ?_, ?_⟩
  · simp only [addNode, h₁, addNodeWithId, hin, he, if_true]
  · rw [mapSet_of_not_mem, List.map_append, mapSet_keys_of_mem _ _ _ (by rw [hn]; rfl)]
    · rfl
    · rw [mapGet_mapSet, if_neg hrid, h₂]
  · intro x
    rw [mapGet_mapSet, mapGet_mapSet]

/-- Adding the requantisation nodes of outputs `i, i+1, …`. -/
theorem addNodes_requant (id : ℕ) : ∀ (ws : List (List Edge)) (rqs : List L) (i : ℕ) (g : Graph L) (n : Node L), (g.map (·.1)).Nodup → mapGet id g = some n →
    i + ws.length ≤ n.outputs.length → ws.length = rqs.length →
    ∃ g' rids n', addNodes (List.zipWith (fun wire r => requantNode id wire.2 wire.1 r) (ws.zipIdx i) rqs) g = some (g', rids) ∧
      rids.length = ws.length ∧ g'.map (·.1) = g.map (·.1) ++ rids ∧ (g.map (·.1) ++ rids).Nodup ∧
      (∀ x, x ≠ id → x ∈ g.map (·.1) → mapGet x g' = mapGet x g) ∧
      mapGet id g' = some n' ∧ n'.inputs = n.inputs ∧ n'.op = n.op ∧ n'.outputs.length = n.outputs.length ∧
      (∀ k, k < i → n'.outputs[k]? = n.outputs[k]?) ∧
      (∀ k w r, ws[k]? = some w → rids[k]? = some r →
        n'.outputs[i + k]? = (n.outputs[i + k]?).map (· ++ (List.range w.length).map fun t => ⟨some r, t⟩)) ∧
      (∀ k w rq r, ws[k]? = some w → rqs[k]? = some rq → rids[k]? = some r → mapGet r g' = some (requantNode id (i + k) w rq))
  | [], rqs, i, g, n, hg, hn, hl, hlen => by
    refine ⟨g, [], n, by simp [addNodes], rfl, by simp, by simpa using hg, fun _ _ _ => rfl, hn, rfl, rfl, rfl, fun _ _ => rfl, by simp, by simp⟩
  | w :: ws, [], i, g, n, hg, hn, hl, hlen => by simp at hlen
  | w :: ws, rq :: rqs, i, g, n, hg, hn, hl, hlen => by
    simp only [List.length_cons] at hl hlen
    obtain ⟨g₁, r, a₁, a₂, a₃, a₄⟩ := addRequantNode_spec id i w rq g n hn (by omega)
    have hid : id ∈ g.map (·.1) := (mapGet_isSome_iff _ _).mp (by rw [hn]; rfl)
    have hrid : id ≠ r := fun e => a₂ (e ▸ hid)
    have hg₁ : (g₁.map (·.1)).Nodup := by
      rw [a₃]
      refine List.nodup_append.mpr ⟨hg, by simp, ?_⟩
      intro x hx y hy
      simp only [List.mem_singleton] at hy
      subst hy
      rintro rfl
      exact a₂ hx
    have hn₁ := a₄ id
    rw [if_neg hrid, if_pos rfl] at hn₁
    obtain ⟨g', rids, n', b₁, b₂, b₃, b₄, b₅, b₆, b₇, b₈, b₉, b₁₀, b₁₁, b₁₂⟩ :=
      addNodes_requant id ws rqs (i + 1) g₁ _ hg₁ hn₁ (by simp; omega) (by omega)
    refine ⟨g', r :: rids, n', ?_, by simp [b₂], by rw [b₃, a₃]; simp, by rw [a₃] at b₄; simpa using b₄, ?_, b₆, b₇, b₈, by simpa using b₉, ?_, ?_, ?_⟩
    · simp only [List.zipIdx_cons, List.zipWith_cons_cons, addNodes, a₁, b₁, Option.bind_eq_bind, Option.bind_some]
    · intro x hx hxg
      have hxr : x ≠ r := fun e => a₂ (e ▸ hxg)
      rw [b₅ x hx (by rw [a₃]; exact List.mem_append_left _ hxg), a₄, if_neg hxr, if_neg hx]
    · intro k hk
      rw [b₁₀ k (by omega)]
      simp only [List.getElem?_modify]
      have hik : ¬i = k := by omega
      simp [hik]
    · intro k w' r' hw hr
      cases k with
      | zero =>
        simp only [List.getElem?_cons_zero, Option.some.injEq] at hw hr
        subst hw hr
        rw [Nat.add_zero, b₁₀ i (by omega)]
        simp
      | succ k =>
        simp only [List.getElem?_cons_succ] at hw hr
        have := b₁₁ k w' r' hw hr
        rw [show i + (k + 1) = i + 1 + k by omega, this]
        simp only [List.getElem?_modify]
        have hik : ¬i = i + 1 + k := by omega
        simp [hik]
    · intro k w' rq' r' hw hrq hr
      cases k with
      | zero =>
        simp only [List.getElem?_cons_zero, Option.some.injEq] at hw hrq hr
        subst hw hrq hr
        rw [b₅ r (Ne.symm hrid) (by rw [a₃]; simp), a₄, if_pos rfl, Nat.add_zero]
      | succ k =>
        simp only [List.getElem?_cons_succ] at hw hrq hr
        have := b₁₂ k w' rq' r' hw hrq hr
        rw [this, show i + (k + 1) = i + 1 + k by omega]

/-- Rerouting the consumers of one wire. -/
theorem reroute_wire (id rid : ℕ) : ∀ (wire : List Edge) (g : Graph L), (∀ b j, wire.count ⟨some b, j⟩ ≤ 1) →
    (∀ b j, (⟨some b, j⟩ : Edge) ∈ wire → ∃ m e, mapGet b g = some m ∧ m.inputs[j]? = some e ∧ e.node = some id) →
    ∃ g', wire.foldlM (rerouteEdge id rid 0) g = some g' ∧ g'.map (·.1) = g.map (·.1) ∧
      ∀ x, mapGet x g' = (mapGet x g).map fun m => { m with inputs := m.inputs.mapIdx fun j e => if (⟨some x, j⟩ : Edge) ∈ wire then ⟨some rid, 0⟩ else e }
  | [], g, _, _ => by
    refine ⟨g, rfl, rfl, fun x => ?_⟩
    cases mapGet x g with
    | none => rfl
    | some m =>
      have : m.inputs.mapIdx (fun _ e => e) = m.inputs := by
        apply List.ext_getElem? ; intro i; simp
      simp [this]
  | ⟨none, idx⟩ :: wire, g, hc, hm => by
    obtain ⟨g', h₁, h₂, h₃⟩ := reroute_wire id rid wire g
      (fun b j => by have := hc b j; rwa [List.count_cons_of_ne (by simp)] at this)
      (fun b j hb => hm b j (List.mem_cons_of_mem _ hb))
    refine ⟨g', by simpa [List.foldlM_cons, rerouteEdge] using h₁, h₂, fun x => ?_⟩
    rw [h₃ x]
    simp
  | ⟨some b, j⟩ :: wire, g, hc, hm => by
    obtain ⟨m, e, hb, hj, he⟩ := hm b j (by simp)
    have hnot : (⟨some b, j⟩ : Edge) ∉ wire := by
      have := hc b j
      rw [List.count_cons_self] at this
      intro h
      have := List.count_pos_iff.mpr h
      omega
    obtain ⟨g₁, hg₁⟩ : ∃ g₁, g₁ = mapSet b { m with inputs := m.inputs.set j ⟨some rid, 0⟩ } g := ⟨_, rfl⟩
    have hget : ∀ x, mapGet x g₁ = if x = b then some { m with inputs := m.inputs.set j ⟨some rid, 0⟩ } else mapGet x g := fun x => by
      rw [hg₁, mapGet_mapSet]
    have hstep : rerouteEdge id rid 0 g ⟨some b, j⟩ = some g₁ := by
      simp [rerouteEdge, hb, hj, he, hg₁]
    obtain ⟨g', h₁, h₂, h₃⟩ := reroute_wire id rid wire g₁
      (fun b' j' => le_trans (by rw [List.count_cons]; omega) (hc b' j'))
      (fun b' j' hbj => by
        obtain ⟨m', e', q₁, q₂, q₃⟩ := hm b' j' (List.mem_cons_of_mem _ hbj)
        by_cases hbb : b' = b
        · subst hbb
          rw [hb] at q₁
          cases q₁
          refine ⟨_, e', by rw [hget, if_pos rfl], ?_, q₃⟩
          have : j ≠ j' := by
            rintro rfl
            exact hnot hbj
          simp only [List.getElem?_set, if_neg this]
          exact q₂
        · exact ⟨m', e', by rw [hget, if_neg hbb, q₁], q₂, q₃⟩)
    refine ⟨g', by simp [List.foldlM_cons, hstep, h₁], ?_, fun x => ?_⟩
    · rw [h₂, hg₁, mapSet_keys_of_mem _ _ _ (by rw [hb]; rfl)]
    · rw [h₃ x, hget]
      by_cases hx : x = b
      · subst hx
        rw [if_pos rfl, hb]
        simp only [Option.map_some, Option.some.injEq, Node.mk.injEq, and_true]
        apply List.ext_getElem?
        intro k
        simp only [List.getElem?_mapIdx, List.getElem?_set, List.mem_cons, Edge.mk.injEq, true_and]
        by_cases hk : j = k
        · subst hk
          have hlt : j < m.inputs.length := (List.getElem?_eq_some_iff.mp hj).1
          simp [hlt, hnot]
        · have hk' : ¬k = j := fun q => hk q.symm
          simp [hk, hk']
      · rw [if_neg hx]
        have hx' : ∀ k, ¬(⟨some x, k⟩ : Edge) = ⟨some b, j⟩ := fun k q => hx (by simpa using (Edge.mk.inj q).1)
        simp only [List.mem_cons, hx', false_or]


/-- The rerouting after the consumers of the first `k` outputs have been rerouted. -/
def redirectUpTo (id : ℕ) (rids : List ℕ) (k : ℕ) (e : Edge) : Edge := if e.node = some id ∧ e.index < k then ⟨rids[e.index]?, 0⟩ else e

structure ReroutedUpTo (g g₂ : Graph L) (id : ℕ) (rids : List ℕ) (k : ℕ) (g₃ : Graph L) : Prop where
  keys : g₃.map (·.1) = g₂.map (·.1)
  get : ∀ x, mapGet x g₃ = (mapGet x g₂).map fun m => if x ∈ g.map (·.1) then { m with inputs := m.inputs.map (redirectUpTo id rids k) } else m

theorem mapIdx_eq_self {α : Type} (l : List α) (f : ℕ → α → α) (h : ∀ j a, l[j]? = some a → f j a = a) : l.mapIdx f = l := by
  apply List.ext_getElem?
  intro j
  rw [List.getElem?_mapIdx]
  cases hj : l[j]? with
  | none => rfl
  | some a => simp [h j a hj]

theorem reroute_all {g g₂ : Graph L} {id : ℕ} {rids : List ℕ} {n : Node L} {rqs : List L} (hk : (g.map (·.1)).Nodup) (hs : Spec.Symmetric g) (hn : mapGet id g = some n)
    (hlen : rids.length = n.outputs.length) (hrq : rqs.length = n.outputs.length)
    (hfresh : ∀ r ∈ rids, r ∉ g.map (·.1))
    (hin : ∀ x m, mapGet x g = some m → ∃ m₂, mapGet x g₂ = some m₂ ∧ m₂.inputs = m.inputs)
    (hreq : ∀ k w rq r, n.outputs[k]? = some w → rqs[k]? = some rq → rids[k]? = some r → mapGet r g₂ = some (requantNode id k w rq)) :
    ∀ (rs : List ℕ) (k : ℕ) (g₃ : Graph L), rids.drop k = rs → ReroutedUpTo g g₂ id rids k g₃ →
    ∃ g', rs.foldlM (rerouteNode id) g₃ = some g' ∧ ReroutedUpTo g g₂ id rids (k + rs.length) g'
  | [], k, g₃, _, h => ⟨g₃, rfl, h⟩
  | r :: rs, k, g₃, hd, h => by
    have hkr : rids[k]? = some r := by
      rw [← List.head?_drop, hd]; rfl
    have hkl : k < n.outputs.length := hlen ▸ (List.getElem?_eq_some_iff.mp hkr).1
    obtain ⟨w, hw⟩ : ∃ w, n.outputs[k]? = some w := ⟨_, List.getElem?_eq_getElem hkl⟩
    obtain ⟨rq, hq⟩ : ∃ rq, rqs[k]? = some rq := ⟨_, List.getElem?_eq_getElem (hrq ▸ hkl)⟩
    have hr₂ := hreq k w rq r hw hq hkr
    have hrg : r ∉ g.map (·.1) := hfresh r (List.mem_of_getElem? hkr)
    have hidn : (id, n) ∈ g := (mapGet_iff_mem g hk id n).mp hn
    have hmem : ∀ b j, (⟨some b, j⟩ : Edge) ∈ w ↔ ∃ m, mapGet b g = some m ∧ m.inputs[j]? = some ⟨some id, k⟩ := by
      intro b j
      have := hs.out id n k w hidn hw b j
      rw [← List.count_pos_iff]
      constructor
      · intro hp
        by_contra hno
        rw [this.2 (by rintro ⟨m, hm, hj⟩; exact hno ⟨m, (mapGet_iff_mem g hk b m).mpr hm, hj⟩)] at hp
        omega
      · rintro ⟨m, hm, hj⟩
        rw [this.1 ⟨m, (mapGet_iff_mem g hk b m).mp hm, hj⟩]
        omega
    have hcount : ∀ b j, w.count ⟨some b, j⟩ ≤ 1 := by
      intro b j
      have := hs.out id n k w hidn hw b j
      by_cases hex : ∃ m : Node L, (b, m) ∈ g ∧ m.inputs[j]? = some ⟨some id, k⟩
      · rw [this.1 hex]
      · rw [this.2 hex]; omega
    obtain ⟨g₄, q₁, q₂, q₃⟩ := reroute_wire id r w g₃ hcount (by
      intro b j hbj
      obtain ⟨m, hm, hj⟩ := (hmem b j).mp hbj
      obtain ⟨m₂, hm₂, he⟩ := hin b m hm
      have hbg : b ∈ g.map (·.1) := (mapGet_isSome_iff b g).mp (by rw [hm]; rfl)
      refine ⟨{ m₂ with inputs := m₂.inputs.map (redirectUpTo id rids k) }, ⟨some id, k⟩, by rw [h.get, hm₂]; simp [hbg], ?_, rfl⟩
      simp only [List.getElem?_map, he, hj, Option.map_some, redirectUpTo]
      simp)
    have hnode : rerouteNode id g₃ r = some g₄ := by
      have : mapGet r g₃ = some (requantNode id k w rq) := by
        rw [h.get, hr₂]; simp [hrg]
      simp [rerouteNode, this, requantNode, List.foldlM_cons, q₁]
    have hup : ReroutedUpTo g g₂ id rids (k + 1) g₄ := by
      refine ⟨q₂.trans h.keys, fun x => ?_⟩
      rw [q₃, h.get]
      cases hx₂ : mapGet x g₂ with
      | none => rfl
      | some m₂ =>
        simp only [Option.map_some, Option.some.injEq]
        by_cases hxg : x ∈ g.map (·.1)
        · obtain ⟨m, hm⟩ := Option.isSome_iff_exists.mp ((mapGet_isSome_iff x g).mpr hxg)
          obtain ⟨m₂', hm₂', he⟩ := hin x m hm
          rw [hx₂] at hm₂'
          cases hm₂'
          rw [if_pos hxg, if_pos hxg]
          simp only [Node.mk.injEq, and_true]
          apply List.ext_getElem?
          intro j
          simp only [List.getElem?_mapIdx, List.getElem?_map, he]
          cases hj : m.inputs[j]? with
          | none => rfl
          | some e =>
            simp only [Option.map_some, Option.some.injEq]
            by_cases hek : e = ⟨some id, k⟩
            · rw [if_pos ((hmem x j).mpr ⟨m, hm, by rw [hj, hek]⟩), hek]
              simp [redirectUpTo, hkr]
            · rw [if_neg (fun hmm => by
                obtain ⟨m', hm', hj'⟩ := (hmem x j).mp hmm
                rw [hm] at hm'
                cases hm'
                rw [hj] at hj'
                exact hek (by simpa using hj'))]
              unfold redirectUpTo
              have : (e.node = some id ∧ e.index < k) ↔ (e.node = some id ∧ e.index < k + 1) := by
                constructor
                · rintro ⟨a, b⟩; exact ⟨a, by omega⟩
                · rintro ⟨a, b⟩
                  refine ⟨a, ?_⟩
                  have : e.index ≠ k := fun hi => hek (by cases e; simp_all)
                  omega
              simp only [this]
        · rw [if_neg hxg, if_neg hxg]
          have : m₂.inputs.mapIdx (fun j e => if (⟨some x, j⟩ : Edge) ∈ w then (⟨some r, 0⟩ : Edge) else e) = m₂.inputs := by
            apply mapIdx_eq_self
            intro j a _
            rw [if_neg]
            intro hmm
            obtain ⟨m, hm, -⟩ := (hmem x j).mp hmm
            exact hxg ((mapGet_isSome_iff x g).mp (by rw [hm]; rfl))
          rw [this]
    obtain ⟨g', e₁, e₂⟩ := reroute_all hk hs hn hlen hrq hfresh hin hreq rs (k + 1) g₄ (by
      rw [← List.drop_drop, hd]; rfl) hup
    exact ⟨g', by simp [List.foldlM_cons, hnode, e₁], by rw [List.length_cons, show k + (rs.length + 1) = k + 1 + rs.length by omega]; exact e₂⟩

/-- The whole insertion. -/
theorem addRequantNodes_spec {g : Graph L} {id : ℕ} {n : Node L} {rqs : List L} (hk : (g.map (·.1)).Nodup) (hs : Spec.Symmetric g) (hn : mapGet id g = some n)
    (hrq : rqs.length = n.outputs.length) :
    ∃ (g' : Graph L) (rids : List ℕ), addRequantNodes g rqs id = some (g', rids) ∧ rids.length = n.outputs.length ∧ g'.map (·.1) = g.map (·.1) ++ rids ∧ (g.map (·.1) ++ rids).Nodup ∧
      (∀ (x : ℕ) (m : Node L), mapGet x g = some m → ∃ m' : Node L, mapGet x g' = some m' ∧ m'.op = m.op ∧ m'.inputs = m.inputs.map (redirect id rids) ∧
        (x ≠ id → m'.outputs = m.outputs) ∧
        (x = id → m'.outputs.length = m.outputs.length ∧ ∀ (i : ℕ) (w : List Edge) (r : ℕ), m.outputs[i]? = some w → rids[i]? = some r →
          m'.outputs[i]? = some ((List.range w.length).map fun t => ⟨some r, t⟩))) ∧
      (∀ (i : ℕ) (w : List Edge) (rq : L) (r : ℕ), n.outputs[i]? = some w → rqs[i]? = some rq → rids[i]? = some r →
        mapGet r g' = some ⟨List.replicate w.length ⟨some id, i⟩, [w], rq⟩) := by
  obtain ⟨n₁, hn₁⟩ : ∃ n₁ : Node L, n₁ = { n with outputs := List.replicate n.outputs.length [] } := ⟨_, rfl⟩
  obtain ⟨g₁, hg₁⟩ : ∃ g₁ : Graph L, g₁ = mapSet id n₁ g := ⟨_, rfl⟩
  have hkeys₁ : g₁.map (·.1) = g.map (·.1) := by rw [hg₁, mapSet_keys_of_mem _ _ _ (by rw [hn]; rfl)]
  have hget₁ : ∀ x, mapGet x g₁ = if x = id then some n₁ else mapGet x g := fun x => by rw [hg₁, mapGet_mapSet]
  have hol : n₁.outputs.length = n.outputs.length := by rw [hn₁]; simp
  obtain ⟨g₂, rids, n', b₁, b₂, b₃, b₄, b₅, b₆, b₇, b₈, b₉, -, b₁₁, b₁₂⟩ :=
    addNodes_requant id n.outputs rqs 0 g₁ n₁ (by rw [hkeys₁]; exact hk) (by rw [hget₁, if_pos rfl]) (by rw [hol]; omega) hrq.symm
  rw [hkeys₁] at b₃ b₄
  simp only [Nat.zero_add] at b₁₁ b₁₂
  have hfresh : ∀ r ∈ rids, r ∉ g.map (·.1) := fun r hr hg => (List.nodup_append.mp b₄).2.2 r hg r hr rfl
  have hin : ∀ x m, mapGet x g = some m → ∃ m₂, mapGet x g₂ = some m₂ ∧ m₂.inputs = m.inputs := by
    intro x m hm
    by_cases hx : x = id
    · subst hx
      rw [hn] at hm
      cases hm
      exact ⟨n', b₆, by rw [b₇, hn₁]⟩
    · refine ⟨m, ?_, rfl⟩
      rw [b₅ x hx (by rw [hkeys₁]; exact (mapGet_isSome_iff x g).mp (by rw [hm]; rfl)), hget₁, if_neg hx, hm]
  obtain ⟨g', e₁, e₂⟩ := reroute_all hk hs hn b₂ hrq hfresh hin b₁₂ rids 0 g₂ rfl (by
    refine ⟨rfl, fun x => ?_⟩
    cases mapGet x g₂ with
    | none => rfl
    | some m =>
      have : ∀ l : List Edge, l.map (redirectUpTo id rids 0) = l := fun l => by
        have : redirectUpTo id rids 0 = (fun x => x) := by
          funext e; simp [redirectUpTo]
        rw [this, List.map_id']
      simp [this])
  rw [Nat.zero_add] at e₂
  refine ⟨g', rids, ?_, b₂, e₂.keys.trans b₃, b₄, ?_, ?_⟩
  · unfold addRequantNodes
    rw [hn]
    simp only [Option.bind_eq_bind, Option.bind_some, requantNodes]
    rw [← hn₁, ← hg₁, b₁]
    simp only [Option.bind_some, e₁]
  · intro x m hm
    obtain ⟨m₂, hm₂, he⟩ := hin x m hm
    have hxg : x ∈ g.map (·.1) := (mapGet_isSome_iff x g).mp (by rw [hm]; rfl)
    have hget := e₂.get x
    rw [hm₂] at hget
    simp only [Option.map_some, if_pos hxg] at hget
    have hred : m₂.inputs.map (redirectUpTo id rids rids.length) = m.inputs.map (redirect id rids) := by
      rw [he]
      apply List.map_congr_left
      intro e hem
      unfold redirectUpTo redirect
      by_cases hei : e.node = some id
      · obtain ⟨j, hj⟩ := List.getElem?_of_mem hem
        have hm' : (x, m) ∈ g := (mapGet_iff_mem g hk x m).mp hm
        obtain ⟨na, wa, hna, hwa⟩ := hs.inp x m j id e.index hm' (by rw [hj]; cases e; simp_all)
        have : na = n := by
          have := (mapGet_iff_mem g hk id na).mpr hna
          rw [hn] at this
          exact (Option.some.inj this).symm
        subst this
        have : e.index < rids.length := b₂ ▸ (List.getElem?_eq_some_iff.mp hwa).1
        rw [if_pos ⟨hei, this⟩, if_pos hei]
      · rw [if_neg (fun h => hei h.1), if_neg hei]
    rw [hred] at hget
    by_cases hx : x = id
    · subst hx
      rw [hn] at hm
      cases hm
      rw [b₆] at hm₂
      cases hm₂
      refine ⟨_, hget, by rw [b₈, hn₁], rfl, fun h => absurd rfl h, fun _ => ⟨by rw [← hol]; exact b₉, ?_⟩⟩
      intro i w r hw hr
      simp only
      rw [b₁₁ i w r hw hr, hn₁]
      have hil : i < n.outputs.length := (List.getElem?_eq_some_iff.mp hw).1
      simp [List.getElem?_replicate, hil]
    · have hm₂' : m₂ = m := by
        have := b₅ x hx (by rw [hkeys₁]; exact hxg)
        rw [hget₁, if_neg hx, hm, hm₂] at this
        exact Option.some.inj this
      subst hm₂'
      exact ⟨_, hget, rfl, rfl, fun _ => rfl, fun h => absurd h hx⟩
  · intro i w rq r hw hq hr
    have hrg : r ∉ g.map (·.1) := hfresh r (List.mem_of_getElem? hr)
    rw [e₂.get, b₁₂ i w rq r hw hq hr]
    simp [hrg, requantNode, List.map_const']

end Lemmas
