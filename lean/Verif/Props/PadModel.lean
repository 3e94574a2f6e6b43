import Verif.Lemmas.PadModel

/-!
C99: padding a whole model keeps its results.
-/

namespace Props

open Model Spec Lemmas

/-- What is known of one node of the padded model, for values `val'` of its nodes. -/
def PadGood (p A : ℕ) (r : ZMod p) (bl : ℕ) (g : Graph (PadLayer (Tensor ℤ × Tensor ℤ))) (g' : Graph (PadLayer Conv)) (infos : List (ℕ × List PadShape)) (input : List (Tensor ℤ × List ℕ)) (val : ℕ → List (Tensor ℤ))
    [Fact p.Prime] (val' : ℕ → List (Tensor ℤ × List ℕ)) (b : ℕ) : Prop :=
  (∀ m', (b, m') ∈ g' → ∃ ins, List.Forall₂ (Carries input val') m'.inputs ins ∧ padEval (fun c => c.op A r (toField p) toElement) bl m'.op ins = some (val' b)) ∧
  ∃ sd y y', mapGet b infos = some [sd] ∧ val b = [y] ∧ val' b = [(y', y.shape)] ∧ Padded sd y y' ∧ ∀ m, (b, m) ∈ g → Clears m.op → CleanPad y y'

theorem carries_update {V : Type} {input : List V} {val : ℕ → List V} {e : Edge} {v : V} {x : ℕ} {w : List V} (h : Carries input val e v) (hx : e.node ≠ some x) :
    Carries input (Function.update val x w) e v := by
  unfold Carries at h ⊢
  cases hn : e.node with
  | none => rw [hn] at h; exact h
  | some a =>
    rw [hn] at h hx
    simp only at h ⊢
    rw [Function.update_of_ne (by rintro rfl; exact hx rfl)]
    exact h

theorem padModel_values (p : ℕ) [Fact p.Prime] (A : ℕ) (r : ZMod p) (hr : IsPrimitiveRoot r (2 ^ A)) (bl : ℕ) (g : Graph (PadLayer (Tensor ℤ × Tensor ℤ))) (hk : (g.map (·.1)).Nodup)
    (hall : ∀ a n, (a, n) ∈ g → a ∈ forwardOrder g) (hdeps : ∀ b m, (b, m) ∈ g → ∀ e ∈ m.inputs, ∀ a, e.node = some a → ∃ n, (a, n) ∈ g)
    (shapes : List (List ℕ)) (g' : Graph (PadLayer Conv)) (infos : List (ℕ × List PadShape)) (hpad : padModel g shapes = some (g', infos)) (hlayers : ∀ b m, (b, m) ∈ g → LayerOk m.op)
    (hreq : ∀ b m q, (b, m) ∈ g → m.op = .requant q → ∀ e ∈ m.inputs, ∃ a n, e.node = some a ∧ (a, n) ∈ g ∧ Clears n.op)
    (input input' : List (Tensor ℤ)) (hin : ∀ (k : ℕ) (s : List ℕ), shapes[k]? = some s → ∃ x x', input[k]? = some x ∧ input'[k]? = some x' ∧ Padded ⟨s, s.map nextPow2, none⟩ x x')
    (val : ℕ → List (Tensor ℤ)) (hval : Dataflow (unpaddedEval bl) g input val)
    (hfit : ∀ b m, (b, m) ∈ g → ∀ e ∈ m.inputs, ∀ sd x, Carries (shapes.map fun s => ⟨s, s.map nextPow2, none⟩) (fun a => (mapGet a infos).getD []) e sd →
      Carries input val e x → LayerFits p A m.op sd x) :
    ∀ (rest done : List ℕ), forwardOrder g = done ++ rest → (∃ val', ∀ b ∈ done, PadGood p A r bl g g' infos (input'.zip shapes) val val' b) →
      ∃ val', ∀ b ∈ forwardOrder g, PadGood p A r bl g g' infos (input'.zip shapes) val val' b
  | [], done, ho, h => by rw [ho]; simpa using h
  | x :: rest, done, ho, ⟨val', hv⟩ => by
    refine padModel_values p A r hr bl g hk hall hdeps shapes g' infos hpad hlayers hreq input input' hin val hval hfit rest (done ++ [x]) (by rw [ho]; simp) ?_
    have hresp := (C48_forward g hk).1
    obtain ⟨hk', hex, hnode⟩ := padModel_facts hk hall hpad
    obtain ⟨m, hm⟩ := hresp.nodes x (by rw [ho]; simp)
    obtain ⟨m', hm'⟩ := hex x m hm
    obtain ⟨m2, sds, pr, hm2, hsds, hpl, hinf, rfl⟩ := hnode x m' hm'
    obtain rfl : m2 = m := by
      have h1 := (mapGet_iff_mem g hk x m2).2 hm2
      have h2 := (mapGet_iff_mem g hk x m).2 hm
      rw [h1] at h2
      exact Option.some.inj h2
    obtain ⟨ins, hins, hev⟩ := hval x m2 hm
    obtain ⟨a, rfl⟩ : ∃ a, ins = [a] := by
      unfold unpaddedEval at hev
      split at hev <;> first | exact ⟨_, rfl⟩ | cases hev
    obtain ⟨e, he⟩ : ∃ e, m2.inputs = [e] := List.length_eq_one_iff.1 hins.length_eq
    rw [he] at hins hsds
    have hea : Carries input val e a := by cases hins; assumption
    obtain ⟨sd, rfl⟩ : ∃ sd, sds = [sd] := List.length_eq_one_iff.1 hsds.length_eq.symm
    have hes : Carries (shapes.map fun s => (⟨s, s.map nextPow2, none⟩ : PadShape)) (fun a => (mapGet a infos).getD []) e sd := by cases hsds; assumption
    have hmem : e ∈ m2.inputs := by rw [he]; simp
    have hxd : x ∉ done := by
      have := hresp.once
      rw [ho] at this
      exact fun h => (List.nodup_append.1 this).2.2 x h x (by simp) rfl
    -- the input of the node
    obtain ⟨a', ha', hrel, hcl⟩ : ∃ a', Carries (input'.zip shapes) val' e (a', a.shape) ∧ Padded sd a a' ∧ ∀ q, m2.op = .requant q → CleanPad a a' := by
      cases hn : e.node with
      | none =>
        unfold Carries at hea hes ⊢
        rw [hn] at hea hes ⊢
        simp only [List.getElem?_map, Option.map_eq_some_iff] at hea hes ⊢
        obtain ⟨s, hs, rfl⟩ := hes
        obtain ⟨z, z', h1, h2, h3⟩ := hin _ s hs
        rw [h1] at hea
        obtain rfl := Option.some.inj hea
        refine ⟨z', ?_, h3, ?_⟩
        · rw [List.getElem?_zip_eq_some]
          refine ⟨h2, ?_⟩
          rw [hs]
          rcases h3.shapes with ⟨-, h4, -⟩ | ⟨h4, -⟩
          · rw [h4]
          · cases h4
        · intro q hq
          obtain ⟨_, _, h4, -⟩ := hreq x m2 q hm hq e hmem
          rw [hn] at h4
          cases h4
      | some c =>
        obtain ⟨nc, hnc⟩ := hdeps x m2 hm e hmem c hn
        have hcd : c ∈ done := hresp.before done x rest ho c ⟨⟨m2, hm, e, hmem, hn⟩, nc, hnc⟩
        obtain ⟨-, sd0, y, y', g1, g2, g3, g4, g5⟩ := hv c hcd
        unfold Carries at hea hes ⊢
        rw [hn] at hea hes ⊢
        simp only [g1, g2, g3, Option.getD_some] at hea hes ⊢
        have hi : e.index = 0 := by
          by_contra h0
          rw [List.getElem?_eq_none (by simp; omega)] at hea
          cases hea
        rw [hi] at hea hes ⊢
        simp only [List.getElem?_cons_zero, Option.some.injEq] at hea hes
        subst hea hes
        refine ⟨y', rfl, g4, ?_⟩
        intro q hq
        obtain ⟨c', n', h4, h5, h6⟩ := hreq x m2 q hm hq e hmem
        rw [hn] at h4
        obtain rfl := Option.some.inj h4
        exact g5 n' h5 h6
    obtain ⟨l', sds'⟩ := pr
    obtain ⟨sd', y, y', h1, h2, h3, h4, h5⟩ := pad_layer_step p A r hr bl m2.op (hlayers x m2 hm) hrel l' hpl (hfit x m2 hm e hmem sd a hes hea) hcl hev
    simp only at h1 hinf
    refine ⟨Function.update val' x [(y', y.shape)], ?_⟩
    intro b hb
    rcases List.mem_append.1 hb with hb' | hb'
    · clear hb
      rename' hb' => hb
      obtain ⟨g1, sd0, z, z', g2, g3, g4, g5⟩ := hv b hb
      have hbx : b ≠ x := by rintro rfl; exact hxd hb
      refine ⟨?_, sd0, z, z', g2, g3, by rw [Function.update_of_ne hbx]; exact g4, g5⟩
      intro mb hmb
      obtain ⟨ins, i1, i2⟩ := g1 mb hmb
      refine ⟨ins, ?_, by rw [Function.update_of_ne hbx]; exact i2⟩
      obtain ⟨n0, _, _, hn0, -, -, -, rfl⟩ := hnode b mb hmb
      have hne : ∀ e ∈ n0.inputs, e.node ≠ some x := by
        intro e0 he0 hc
        obtain ⟨d1, d2, hd⟩ := List.append_of_mem hb
        have := hresp.before d1 b (d2 ++ x :: rest) (by rw [ho, hd]; simp) x ⟨⟨n0, hn0, e0, he0, hc⟩, m2, hm⟩
        exact hxd (by rw [hd]; simp [this])
      have hF : ∀ (es : List Edge) (vs : List (Tensor ℤ × List ℕ)), (∀ e ∈ es, e.node ≠ some x) → List.Forall₂ (Carries (input'.zip shapes) val') es vs →
          List.Forall₂ (Carries (input'.zip shapes) (Function.update val' x [(y', y.shape)])) es vs := by
        intro es vs hes hf
        induction hf with
        | nil => exact .nil
        | cons h0 _ ih => exact .cons (carries_update h0 (hes _ (by simp))) (ih fun e he => hes e (by simp [he]))
      exact hF _ _ hne i1
    · rw [List.mem_singleton] at hb'
      subst hb'
      refine ⟨?_, sd', y, y', by rw [hinf, h1], h2, by simp, h4, ?_⟩
      · intro mb hmb
        obtain rfl : mb = ⟨m2.inputs, m2.outputs, l'⟩ := by
          have q1 := (mapGet_iff_mem g' hk' b mb).2 hmb
          have q2 := (mapGet_iff_mem g' hk' b _).2 hm'
          rw [q1] at q2
          exact Option.some.inj q2
        refine ⟨[(a', a.shape)], ?_, by rw [Function.update_self]; exact h3⟩
        simp only [he]
        refine .cons (carries_update ha' ?_) .nil
        intro hc
        have := hresp.before done b rest ho b ⟨⟨m2, hm, e, hmem, hc⟩, m2, hm⟩
        exact hxd this
      · intro n hn hcl
        have q1 := (mapGet_iff_mem g hk b n).2 hn
        rw [(mapGet_iff_mem g hk b m2).2 hm] at q1
        obtain rfl := Option.some.inj q1
        exact h5 hcl

/-- C99, for models of convolutions, dense layers, ReLU, requantisation, max pooling and flatten layers, connected in any way. If a model built by successful calls is padded and its inference on some inputs, computed without padding,
succeeds, then the padded model has the same nodes and connections, its inference on the padded inputs succeeds, and every tensor computed in it holds the entries of the tensor computed without padding at the same coordinates; the
shapes recorded by padding, and the shapes that are carried along, are right. Missing: other layers; requantisation that does not follow a convolution or a dense layer; and what is proved to fail elsewhere (the conditions in `LayerFits`). -/
theorem C99_padded_partial (p : ℕ) [Fact p.Prime] (A : ℕ) (r : ZMod p) (hr : IsPrimitiveRoot r (2 ^ A)) (bl : ℕ) (numOutputs : PadLayer (Tensor ℤ × Tensor ℤ) → ℕ → ℕ) (numInputs : ℕ)
    (g : Graph (PadLayer (Tensor ℤ × Tensor ℤ))) (hb : Spec.Built numOutputs numInputs g)
    (shapes : List (List ℕ)) (g' : Graph (PadLayer Conv)) (infos : List (ℕ × List PadShape)) (hpad : padModel g shapes = some (g', infos)) (hlayers : ∀ b m, (b, m) ∈ g → LayerOk m.op)
    (hreq : ∀ b m q, (b, m) ∈ g → m.op = .requant q → ∀ e ∈ m.inputs, ∃ a n, e.node = some a ∧ (a, n) ∈ g ∧ Clears n.op)
    (input input' : List (Tensor ℤ)) (hin : ∀ (k : ℕ) (s : List ℕ), shapes[k]? = some s → ∃ x x', input[k]? = some x ∧ input'[k]? = some x' ∧ Padded ⟨s, s.map nextPow2, none⟩ x x')
    (t : List (ℕ × List (Tensor ℤ))) (ht : runTrace (unpaddedEval bl) g input = some t)
    (hfit : ∀ b m, (b, m) ∈ g → ∀ e ∈ m.inputs, ∀ sd x, Carries (shapes.map fun s => ⟨s, s.map nextPow2, none⟩) (fun a => (mapGet a infos).getD []) e sd →
      Carries input (fun a => (mapGet a t).getD []) e x → LayerFits p A m.op sd x) :
    (∀ b ins outs, (∃ m, (b, m) ∈ g ∧ m.inputs = ins ∧ m.outputs = outs) ↔ ∃ m', (b, m') ∈ g' ∧ m'.inputs = ins ∧ m'.outputs = outs) ∧
    ∃ t', runTrace (padEval (fun c => c.op A r (toField p) toElement) bl) g' (input'.zip shapes) = some t' ∧
      ∀ b m, (b, m) ∈ g → ∃ sd y y', mapGet b infos = some [sd] ∧ mapGet b t = some [y] ∧ mapGet b t' = some [(y', y.shape)] ∧ Padded sd y y' := by
  have hgood := built_good hb
  have hk := hgood.keys
  have hall : ∀ a n, (a, n) ∈ g → a ∈ forwardOrder g := fun a n hn => (C49_built_complete _ _ g hb a n hn).1
  have hac : ∀ x, ¬Relation.TransGen (TakesFrom g) x x := (C48_complete g hk).1.mp hall
  have hdeps : ∀ b m, (b, m) ∈ g → ∀ e ∈ m.inputs, ∀ a, e.node = some a → ∃ n, (a, n) ∈ g := by
    intro b m hm e he a hea
    obtain ⟨j, hj⟩ := List.getElem?_of_mem he
    obtain ⟨n, w, hn, -⟩ := hgood.symmetric.inp b m j a e.index hm (by rw [hj]; cases e; simp_all)
    exact ⟨n, hn⟩
  obtain ⟨hval, hdom⟩ := C66_run_sound (unpaddedEval bl) g hk hac input t ht
  obtain ⟨hk', hex, hnode⟩ := padModel_facts hk hall hpad
  have hsame : ∀ b ins outs, (∃ m, (b, m) ∈ g ∧ m.inputs = ins ∧ m.outputs = outs) ↔ ∃ m', (b, m') ∈ g' ∧ m'.inputs = ins ∧ m'.outputs = outs := by
    intro b ins outs
    constructor
    · rintro ⟨m, hm, h1, h2⟩
      obtain ⟨m', hm'⟩ := hex b m hm
      obtain ⟨m2, _, _, hm2, -, -, -, rfl⟩ := hnode b m' hm'
      obtain rfl : m2 = m := by
        have q1 := (mapGet_iff_mem g hk b m2).2 hm2
        rw [(mapGet_iff_mem g hk b m).2 hm] at q1
        exact (Option.some.inj q1).symm
      exact ⟨_, hm', h1, h2⟩
    · rintro ⟨m', hm', h1, h2⟩
      obtain ⟨m2, _, _, hm2, -, -, -, rfl⟩ := hnode b m' hm'
      exact ⟨m2, hm2, h1, h2⟩
  refine ⟨hsame, ?_⟩
  obtain ⟨val', hv⟩ := padModel_values p A r hr bl g hk hall hdeps shapes g' infos hpad hlayers hreq input input' hin _ hval hfit (forwardOrder g) [] (by simp) ⟨fun _ => [], by simp⟩
  have hflow : Dataflow (padEval (fun c => c.op A r (toField p) toElement) bl) g' (input'.zip shapes) val' := by
    intro b m' hm'
    obtain ⟨m2, _, _, hm2, -⟩ := hnode b m' hm'
    exact (hv b (hall b m2 hm2)).1 m' hm'
  have htk : ∀ b a, TakesFrom g' b a → TakesFrom g b a := by
    rintro b a ⟨⟨n', hn', e, he, hea⟩, na, hna⟩
    obtain ⟨m2, _, _, hm2, -, -, -, rfl⟩ := hnode b n' hn'
    obtain ⟨m3, _, _, hm3, -⟩ := hnode a na hna
    exact ⟨⟨m2, hm2, e, he, hea⟩, m3, hm3⟩
  have hac' : ∀ x, ¬Relation.TransGen (TakesFrom g') x x := fun x h => hac x (Relation.TransGen.mono htk _ _ h)
  have hdeps' : ∀ b m, (b, m) ∈ g' → ∀ e ∈ m.inputs, ∀ a, e.node = some a → ∃ n, (a, n) ∈ g' := by
    intro b m' hm' e he a hea
    obtain ⟨m2, _, _, hm2, -, -, -, rfl⟩ := hnode b m' hm'
    obtain ⟨n, hn⟩ := hdeps b m2 hm2 e he a hea
    exact hex a n hn
  obtain ⟨t', ht', hv'⟩ := C66_run_complete _ g' hk' hac' hdeps' _ val' hflow
  refine ⟨t', ht', ?_⟩
  intro b m hm
  obtain ⟨-, sd, y, y', h1, h2, h3, h4, -⟩ := hv b (hall b m hm)
  obtain ⟨m', hm'⟩ := hex b m hm
  refine ⟨sd, y, y', h1, ?_, by rw [hv' b m' hm', h3], h4⟩
  obtain ⟨v, hv⟩ := Option.isSome_iff_exists.1 ((hdom b).1 ⟨m, hm⟩)
  simp only [hv, Option.getD_some] at h2
  rw [hv, h2]

end Props
