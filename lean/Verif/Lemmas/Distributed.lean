import Verif.Lemmas.SumcheckProto
import Verif.Model.Distributed
import Mathlib.Data.List.GetD

/-!
The lock-step distributed prover sends the messages of the single prover.
-/

namespace Lemmas
open Spec Model

variable {F : Type} [Field F]

/-- Slice `w` of a table: `2^n` consecutive values. -/
def slice (n w : ℕ) (t : List F) : List F := (t.drop (w * 2 ^ n)).take (2 ^ n)

theorem slice_length (n k w : ℕ) (hw : w < 2 ^ k) (t : List F) (ht : t.length = 2 ^ (n + k)) :
    (slice n w t).length = 2 ^ n := by
  unfold slice
  rw [List.length_take, List.length_drop, ht, pow_add]
  have : (w + 1) * 2 ^ n ≤ 2 ^ k * 2 ^ n := Nat.mul_le_mul_right _ hw
  rw [Nat.add_mul, one_mul] at this
  rw [mul_comm (2 ^ n)]
  omega

theorem slice_getD (n w : ℕ) (t : List F) (j : ℕ) (hj : j < 2 ^ n) :
    (slice n w t).getD j 0 = t.getD (w * 2 ^ n + j) 0 := by
  unfold slice
  rw [getD_take _ _ _ _ hj, List.getD_eq_getElem?_getD, List.getD_eq_getElem?_getD, List.getElem?_drop]

theorem chunkFix_slice (n k w : ℕ) (hw : w < 2 ^ k) (t : List F) (ht : t.length = 2 ^ (n + 1 + k)) (c : F) :
    chunkFix c (slice (n + 1) w t) = slice n w (chunkFix c t) := by
  have hs := slice_length (n + 1) k w hw t ht
  have hc : (chunkFix c t).length = 2 ^ (n + k) :=
    chunkFix_pow_length c t (n + k) (by rw [ht]; congr 1; omega)
  have hl : (chunkFix c (slice (n + 1) w t)).length = 2 ^ n := chunkFix_pow_length c _ n hs
  apply list_ext_getD 0
  · rw [hl, slice_length n k w hw _ hc]
  · intro j hj
    rw [hl] at hj
    rw [slice_getD n w _ j hj, chunkFix_getD c _ (by rw [hs, pow_succ]; omega),
      chunkFix_getD c t (by rw [ht, show n + 1 + k = n + k + 1 by omega, pow_succ]; omega),
      slice_getD _ _ _ _ (by rw [pow_succ]; omega), slice_getD _ _ _ _ (by rw [pow_succ]; omega)]
    rw [show w * 2 ^ (n + 1) + (2 * j + 1) = 2 * (w * 2 ^ n + j) + 1 by rw [pow_succ]; ring,
      show w * 2 ^ (n + 1) + 2 * j = 2 * (w * 2 ^ n + j) by rw [pow_succ]; ring]

theorem fixLow_slice (k w : ℕ) (hw : w < 2 ^ k) (pt : List F) :
    ∀ t : List F, t.length = 2 ^ (pt.length + k) →
    fixLow (slice pt.length w t) pt = slice 0 w (fixLow t pt) := by
  induction pt with
  | nil => intro t _; rfl
  | cons c pt ih =>
    intro t ht
    rw [List.length_cons] at ht
    rw [fixLow_cons, fixLow_cons, List.length_cons, chunkFix_slice pt.length k w hw t ht, ih]
    exact chunkFix_pow_length c t _ (by rw [ht]; congr 1; omega)

theorem slice_zero (w : ℕ) (t : List F) (hw : w < t.length) : slice 0 w t = [t.getD w 0] := by
  apply list_ext_getD 0
  · simp [slice]; omega
  · intro j hj
    have h1 : j = 0 := by simp [slice] at hj; omega
    subst h1
    rw [slice_getD 0 w t 0 (by simp)]; simp

theorem mle_slice (k w : ℕ) (hw : w < 2 ^ k) (pt t : List F) (ht : t.length = 2 ^ (pt.length + k)) :
    mle t (pt ++ bitsPoint k w) = mle (slice pt.length w t) pt := by
  have hl := fixLow_length t pt (pt.length + k) ht (by omega)
  rw [Nat.add_sub_cancel_left] at hl
  rw [mle_append t pt _ _ ht (by omega), mle_bitsPoint _ k w hw]
  have h2 := mle_append (slice pt.length w t) pt [] pt.length (slice_length _ k w hw t ht) le_rfl
  rw [List.append_nil] at h2
  rw [h2, fixLow_slice k w hw pt t ht, mle_nil, slice_zero w _ (by rw [hl]; exact hw)]
  rfl

theorem cubeSum_append (n k : ℕ) (f : List F → F) :
    cubeSum (n + k) f = ∑ w ∈ Finset.range (2 ^ k), cubeSum n fun b => f (b ++ bitsPoint k w) := by
  induction n generalizing f with
  | zero =>
    rw [Nat.zero_add]
    unfold cubeSum
    simp [bitsPoint]
  | succ n ih =>
    rw [show n + 1 + k = n + k + 1 by omega, cubeSum_succ, ih, ih, ← Finset.sum_add_distrib]
    apply Finset.sum_congr rfl
    intro w _
    rw [cubeSum_succ]
    rfl

/-- Tables of a prover that holds everything, and of worker `w`. -/
def whole (n : ℕ) (tb : List (List F)) : List (Mle F) := tb.map fun t => ⟨n, t⟩
def part (n w : ℕ) (tb : List (List F)) : List (Mle F) := tb.map fun t => ⟨n, slice n w t⟩

theorem polyVal_part (P : List (F × List ℕ)) (tb : List (List F)) (n k w : ℕ) (hw : w < 2 ^ k)
    (htb : ∀ t ∈ tb, t.length = 2 ^ (n + k)) (hP : ∀ p ∈ P, ∀ i ∈ p.2, i < tb.length)
    (pt : List F) (hpt : pt.length = n) :
    polyVal P (whole (n + k) tb) (pt ++ bitsPoint k w) = polyVal P (part n w tb) pt := by
  unfold polyVal
  congr 1
  apply List.map_congr_left
  intro p hp
  congr 1
  apply prod_map_congr
  intro i hi
  have hil := hP p hp i hi
  have e1 : (whole (n + k) tb).getD i ⟨0, []⟩ = ⟨n + k, tb[i]⟩ := by
    unfold whole; rw [List.getD_eq_getElem _ _ (by simpa using hil)]; simp
  have e2 : (part n w tb).getD i ⟨0, []⟩ = ⟨n, slice n w tb[i]⟩ := by
    unfold part; rw [List.getD_eq_getElem _ _ (by simpa using hil)]; simp
  rw [e1, e2]
  simp only
  have hl := htb tb[i] (List.getElem_mem hil)
  rw [List.take_of_length_le (by simp [bitsPoint_length, hpt]), List.take_of_length_le (by omega)]
  subst hpt
  exact mle_slice k w hw pt _ hl

variable [DecidableEq F]

/-- The sum of the workers' messages is the single prover's message. -/
theorem roundMsg_parts (P : List (F × List ℕ)) (tb : List (List F)) (D n k : ℕ) (W : ℕ) (hW : W + 1 = 2 ^ k)
    (htb : ∀ t ∈ tb, t.length = 2 ^ (n + 1 + k)) (hP : ∀ p ∈ P, ∀ i ∈ p.2, i < tb.length) :
    (List.ofFn fun w : Fin W => roundMsg D n (polyVal P (part (n + 1) w tb))).foldl addVec
      (addVec (List.replicate (D + 1) 0) (roundMsg D n (polyVal P (part (n + 1) W tb))))
    = roundMsg D (n + k) (polyVal P (whole (n + 1 + k) tb)) := by
  have h0 : addVec (List.replicate (D + 1) 0) (roundMsg D n (polyVal P (part (n + 1) W tb)))
      = roundMsg D n (polyVal P (part (n + 1) W tb)) := by
    rw [← roundMsg_zero D n]
    have := foldl_addVec D n [()] (fun _ => polyVal P (part (n + 1) W tb)) (fun _ => 0)
    simpa using this
  rw [h0]
  have h1 : (List.ofFn fun w : Fin W => roundMsg D n (polyVal P (part (n + 1) w tb)))
      = (List.range W).map fun w => roundMsg D n (polyVal P (part (n + 1) w tb)) := by
    apply List.ext_getElem <;> simp
  rw [h1, foldl_addVec]
  unfold roundMsg
  apply List.map_congr_left
  intro x _
  rw [cubeSum_append]
  rw [← hW, Finset.sum_range_succ, cubeSum_add, cubeSum_sum, add_comm]
  have hc : ∀ w, w < 2 ^ k → (cubeSum n fun b => polyVal P (part (n + 1) w tb) ((x : F) :: b))
      = cubeSum n fun b => polyVal P (whole (n + 1 + k) tb) ((x : F) :: (b ++ bitsPoint k w)) := by
    intro w hw
    apply cubeSum_congr
    intro b hb
    rw [← polyVal_part P tb (n + 1) k w hw htb hP _ (by simp [hb])]
    rfl
  rw [hc W (by omega)]
  congr 1
  have hs : ∀ (f : ℕ → F) (m : ℕ), ((List.range m).map f).sum = ∑ w ∈ Finset.range m, f w := by
    intro f m
    induction m with
    | zero => simp
    | succ m ih => rw [List.range_succ, List.map_append, List.sum_append, ih, Finset.sum_range_succ]; simp
  rw [hs]
  apply Finset.sum_congr rfl
  intro w hw
  exact hc w (by have := Finset.mem_range.mp hw; omega)

theorem honestLoop_length (T : Transcript F) (D e n : ℕ) : ∀ (g : List F → F) (ts : T.State),
    (honestLoop T D e n g ts).1.length = n ∧ (honestLoop T D e n g ts).2.1.length = n := by
  induction n with
  | zero => intro g ts; exact ⟨rfl, rfl⟩
  | succ n ih => intro g ts; simp only [honestLoop, List.length_cons, ih, and_self]

theorem honestLoop_split (T : Transcript F) (D n k : ℕ) : ∀ (g : List F → F) (ts : T.State),
    honestLoop T D 0 (n + k) g ts =
      let h1 := honestLoop T D k n g ts
      let h2 := honestLoop T D 0 k (fun y => g (h1.2.1 ++ y)) h1.2.2
      (h1.1 ++ h2.1, h1.2.1 ++ h2.2.1, h2.2.2) := by
  induction n with
  | zero => intro g ts; simp [honestLoop]
  | succ n ih =>
    intro g ts
    rw [show n + 1 + k = (n + k) + 1 by omega]
    simp only [honestLoop, Nat.add_zero]
    rw [ih]
    simp

theorem whole_bind (n : ℕ) (tb : List (List F)) (c : F) :
    (whole (n + 1) tb).map (bindMle c) = whole n (tb.map (chunkFix c)) := by
  unfold whole; simp [bindMle]

theorem part_bind (n k w : ℕ) (hw : w < 2 ^ k) (tb : List (List F)) (c : F)
    (htb : ∀ t ∈ tb, t.length = 2 ^ (n + 1 + k)) :
    (part (n + 1) w tb).map (bindMle c) = part n w (tb.map (chunkFix c)) := by
  unfold part
  rw [List.map_map, List.map_map]
  apply List.map_congr_left
  intro t ht
  simp [bindMle, chunkFix_slice n k w hw t (htb t ht) c]

theorem whole_wf (D n : ℕ) (P : List (F × List ℕ)) (tb : List (List F))
    (htb : ∀ t ∈ tb, t.length = 2 ^ n)
    (hP : ∀ p ∈ P, p.2 ≠ [] ∧ p.2.length ≤ 5 ∧ p.2.length ≤ D ∧ ∀ i ∈ p.2, i < tb.length) :
    ProverWF D n P (whole n tb) := by
  constructor
  · intro m hm
    obtain ⟨t, ht, rfl⟩ := List.mem_map.mp hm
    exact ⟨htb t ht, le_rfl⟩
  · intro p hp
    obtain ⟨a, b, c, d⟩ := hP p hp
    exact ⟨a, b, c, n, fun i hi => ⟨⟨n, tb[i]'(d i hi)⟩, by simp [whole, d i hi], rfl⟩⟩

theorem part_wf (D n k w : ℕ) (hw : w < 2 ^ k) (P : List (F × List ℕ)) (tb : List (List F))
    (htb : ∀ t ∈ tb, t.length = 2 ^ (n + k))
    (hP : ∀ p ∈ P, p.2 ≠ [] ∧ p.2.length ≤ 5 ∧ p.2.length ≤ D ∧ ∀ i ∈ p.2, i < tb.length) :
    ProverWF D n P (part n w tb) := by
  have := whole_wf D n P (tb.map (slice n w)) (by
    intro t ht
    obtain ⟨t, ht', rfl⟩ := List.mem_map.mp ht
    exact slice_length n k w hw t (htb t ht')) (by simpa using hP)
  have e : whole n (tb.map (slice n w)) = part n w tb := by simp [whole, part]
  rwa [e] at this

/-- The polynomial after binding the first challenges. -/
theorem polyVal_fix (D k : ℕ) (P : List (F × List ℕ)) (cs : List F) : ∀ (tb : List (List F)),
    (∀ t ∈ tb, t.length = 2 ^ (cs.length + k)) →
    (∀ p ∈ P, p.2 ≠ [] ∧ p.2.length ≤ 5 ∧ p.2.length ≤ D ∧ ∀ i ∈ p.2, i < tb.length) →
    ∀ y, polyVal P (whole (cs.length + k) tb) (cs ++ y)
      = polyVal P (whole k (tb.map fun t => fixLow t cs)) y := by
  induction cs with
  | nil => intro tb htb hP y; simp [fixLow]
  | cons c cs ih =>
    intro tb htb hP y
    rw [List.length_cons, show cs.length + 1 + k = cs.length + k + 1 by omega] at htb ⊢
    rw [List.cons_append, ← polyVal_bind (whole_wf D _ P tb htb hP), whole_bind, ih]
    · rw [List.map_map]; rfl
    · intro t ht
      obtain ⟨t, ht', rfl⟩ := List.mem_map.mp ht
      exact chunkFix_pow_length c t _ (htb t ht')
    · simpa using hP

/-- A stage-1 thread at the start of a round with `n` rounds left. -/
structure Good (D n N : ℕ) (P : List (F × List ℕ)) (aux : List (List F × List F)) (chs : List F)
    (ch : Option F) (ms : List (Mle F)) (st : ProverState F) : Prop where
  vars : st.maxNumVars = N
  round : n + st.round = N
  hch : ch = none ↔ st.round = 0
  hchs : st.challenges ++ ch.toList = chs
  len : chs.length = st.round
  products : st.products = P
  degree : st.maxDegree = D
  aux : st.aux = aux
  tables : ∀ m ∈ st.mles, m.evals.length = 2 ^ m.numVars ∧ m.numVars = n + ch.toList.length
  mles : effMles ch st.mles = ms

theorem Good.step {D n N : ℕ} {P : List (F × List ℕ)} {aux : List (List F × List F)} {chs : List F}
    {ch : Option F} {st : ProverState F} {ms : List (Mle F)} (t : ℕ) (ht : 0 < t)
    (h : Good D (n + 1) N P aux chs ch ms st)
    (hwf : ProverWF D (n + 1) P ms) (hms : ∀ m ∈ ms, m.numVars = n + 1) (hprod : P ≠ [])
    (hchar : ∀ k, 0 < k → k ≤ D → (k : F) ≠ 0)
    (haux : ∀ k, k < D - 1 → ∃ w,
      aux[k]? = some ((List.range (k + 2)).map (fun i : ℕ => (i : F)), w) ∧
      barycentricWeights (.parallel t) ((List.range (k + 2)).map (fun i : ℕ => (i : F))) = some w) :
    ∃ st', proveRound .serial st ch = some (roundMsg D n (polyVal P ms), st') ∧
      ∀ c, Good D n N P aux (chs ++ [c]) (some c) (ms.map (bindMle c)) st' := by
  obtain ⟨h1, h2, h3, h4, h5, h6, h7, h8, h9, h10⟩ := h
  refine ⟨_, proveRound_eq .serial (by trivial) t ht st ch n (by omega) h3 ?_ (fun m hm => (h9 m hm).1) ?_
    (by rw [h7, h6, h10]; exact hwf) (by rw [h6]; exact hprod) (by rw [h7]; exact hchar)
    (by rw [h7, h8]; exact haux) |>.trans (by rw [h6, h7, h10]), ?_⟩
  · rw [← h5, ← h4, List.length_append]
    cases ch with
    | none => have := h3.mp rfl; rw [← h4] at h5; simp at h5 ⊢; omega
    | some c => simp
  · intro _ m hm; have := (h9 m hm).2; omega
  · intro c
    refine ⟨h1, by simp only; omega, by simp, ?_, ?_, rfl, rfl, h8, ?_, rfl⟩
    · simp only [h4, Option.toList_some]
    · simp [h5]
    · intro m hm
      simp only at hm
      exact ⟨(hwf.tables m hm).1, by rw [hms m hm]; simp⟩

theorem lockstep_honest (D N k W : ℕ) (hW : W + 1 = 2 ^ k) (t : ℕ) (ht : 0 < t) (T : Transcript F)
    (P : List (F × List ℕ)) (aux : List (List F × List F)) (hprod : P ≠ [])
    (hchar : ∀ k, 0 < k → k ≤ D → (k : F) ≠ 0)
    (haux : ∀ k, k < D - 1 → ∃ w,
      aux[k]? = some ((List.range (k + 2)).map (fun i : ℕ => (i : F)), w) ∧
      barycentricWeights (.parallel t) ((List.range (k + 2)).map (fun i : ℕ => (i : F))) = some w) (n : ℕ) :
    ∀ (tb : List (List F)) (chs : List F) (ch : Option F) (ts : T.State) (main : ProverState F)
      (ws : Fin W → ProverState F),
    (∀ t ∈ tb, t.length = 2 ^ (n + k)) →
    (∀ p ∈ P, p.2 ≠ [] ∧ p.2.length ≤ 5 ∧ p.2.length ≤ D ∧ ∀ i ∈ p.2, i < tb.length) →
    Good D n N P aux chs ch (part n W tb) main →
    (∀ w : Fin W, Good D n N P aux chs ch (part n w tb) (ws w)) →
    ∃ main' ws' ch',
      lockstep D (proveRound .serial) T n main ws ch ts
        = some ((honestLoop T D k n (polyVal P (whole (n + k) tb)) ts).1, main', ws', ch',
            (honestLoop T D k n (polyVal P (whole (n + k) tb)) ts).2.2) ∧
      (n ≠ 0 → ch' ≠ none) ∧
      Good D 0 N P aux (chs ++ (honestLoop T D k n (polyVal P (whole (n + k) tb)) ts).2.1) ch'
        (part 0 W (tb.map fun t => fixLow t (honestLoop T D k n (polyVal P (whole (n + k) tb)) ts).2.1)) main' ∧
      (∀ w : Fin W, Good D 0 N P aux (chs ++ (honestLoop T D k n (polyVal P (whole (n + k) tb)) ts).2.1) ch'
        (part 0 w (tb.map fun t => fixLow t (honestLoop T D k n (polyVal P (whole (n + k) tb)) ts).2.1))
        (ws' w)) := by
  induction n with
  | zero =>
    intro tb chs ch ts main ws htb hP hm hw
    refine ⟨main, ws, ch, rfl, by simp, ?_, ?_⟩
    · simpa [honestLoop, fixLow] using hm
    · simpa [honestLoop, fixLow] using hw
  | succ n ih =>
    intro tb chs ch ts main ws htb hP hm hw
    have hpn : ∀ w, ∀ m ∈ part (n + 1) w tb, m.numVars = n + 1 := by
      intro w m hm
      obtain ⟨t, _, rfl⟩ := List.mem_map.mp hm
      rfl
    obtain ⟨main1, hm1, hm2⟩ := hm.step t ht (part_wf D (n + 1) k W (by omega) P tb htb hP) (hpn W) hprod hchar haux
    have hw' := fun w : Fin W => (hw w).step t ht (part_wf D (n + 1) k w (by omega) P tb htb hP) (hpn w)
      hprod hchar haux
    choose ws1 hw1 hw2 using hw'
    set g := polyVal P (whole (n + 1 + k) tb) with hg
    obtain ⟨c, ts1, hct⟩ : ∃ (c : F) (s : T.State),
      T.challenge (T.appendExts ts (roundMsg D (n + k) g)) = (c, s) := ⟨_, _, rfl⟩
    have hgc : (fun b => g (c :: b)) = polyVal P (whole (n + k) (tb.map (chunkFix c))) := by
      funext b
      rw [← whole_bind, polyVal_bind (D := D) (n := n + k + 1), hg]
      · rw [show n + 1 + k = n + k + 1 by omega]
      · exact whole_wf D (n + k + 1) P tb
          (by intro t ht; rw [htb t ht]; congr 1; omega) hP
    have htb' : ∀ t ∈ tb.map (chunkFix c), t.length = 2 ^ (n + k) := by
      intro t ht
      obtain ⟨t, ht', rfl⟩ := List.mem_map.mp ht
      exact chunkFix_pow_length c t _ (by rw [htb t ht']; congr 1; omega)
    obtain ⟨main', ws', ch', h1, h2, h3, h4⟩ := ih (tb.map (chunkFix c)) (chs ++ [c]) (some c) ts1 main1 ws1
      htb' (by simpa using hP)
      (by have := hm2 c; rwa [part_bind n k W (by omega) tb c htb] at this)
      (by intro w; have := hw2 w c; rwa [part_bind n k w (by omega) tb c htb] at this)
    have hl : honestLoop T D k (n + 1) g ts
        = (roundMsg D (n + k) g :: (honestLoop T D k n (polyVal P (whole (n + k) (tb.map (chunkFix c)))) ts1).1,
           c :: (honestLoop T D k n (polyVal P (whole (n + k) (tb.map (chunkFix c)))) ts1).2.1,
           (honestLoop T D k n (polyVal P (whole (n + k) (tb.map (chunkFix c)))) ts1).2.2) := by
      rw [honestLoop]
      simp only [hct, hgc]
    refine ⟨main', ws', ch', ?_, ?_, ?_, ?_⟩
    · rw [lockstep, hm1]
      simp only
      rw [dif_pos (by intro w; rw [hw1 w]; rfl)]
      simp only [hw1, Option.get_some]
      rw [roundMsg_parts P tb D n k W hW htb (fun p hp => (hP p hp).2.2.2), ← hg, hct]
      simp only
      rw [h1, hl]
    · intro _ hc
      have := h3.hch.mp hc
      have h5 := h3.len
      simp at h5
      omega
    · rw [hl]
      simpa [List.map_map, Function.comp_def, fixLow_cons] using h3
    · intro w
      rw [hl]
      simpa [List.map_map, Function.comp_def, fixLow_cons] using h4 w

theorem foldl_bind_whole (cs : List F) : ∀ (k : ℕ) (tb : List (List F)),
    cs.foldl (fun ms r => ms.map (bindMle r)) (whole (cs.length + k) tb)
      = whole k (tb.map fun t => fixLow t cs) := by
  induction cs with
  | nil => intro k tb; simp [fixLow]
  | cons c cs ih =>
    intro k tb
    rw [List.foldl_cons, List.length_cons, show cs.length + 1 + k = cs.length + k + 1 by omega, whole_bind, ih,
      List.map_map]
    rfl

theorem fixLow_full (t cs : List F) (ht : t.length = 2 ^ cs.length) : fixLow t cs = [mle t cs] := by
  have hl := fixLow_length t cs cs.length ht le_rfl
  have h2 := mle_append t cs [] cs.length ht le_rfl
  rw [List.append_nil, mle_nil] at h2
  rw [Nat.sub_self, pow_zero] at hl
  obtain ⟨v, hv⟩ := List.length_eq_one_iff.mp hl
  rw [h2, hv]; rfl

theorem finish_eq (st : ProverState F) (r : F) (h : ∀ m ∈ st.mles, m.evals.length = 2 ^ m.numVars) :
    proverFinish st r = some { st with challenges := st.challenges ++ [r], mles := st.mles.map (bindMle r) } ∧
    workerFinish st r = some { st with challenges := st.challenges ++ [r], mles := st.mles.map (bindMle r) } := by
  constructor
  · unfold proverFinish
    rw [mapM_some _ (bindMle r)]
    · rfl
    · intro m hm
      unfold bindMle
      by_cases h0 : 0 < m.numVars
      · simp only [h0, if_true]
        rw [if_neg (by omega : ¬ m.numVars = 0)]
        split
        · rw [fixVariables_eq m (h m hm) [r] (by simp; omega)]; rfl
        · rw [fixVariablesInPlace_eq m (h m hm) [r] (by simp; omega)]; rfl
      · have h0' : m.numVars = 0 := by omega
        simp [h0']
  · unfold workerFinish
    rw [mapM_some _ (bindMle r)]
    · rfl
    · intro m hm
      unfold bindMle
      by_cases h0 : 0 < m.numVars
      · simp only [h0, if_true]
        rw [if_neg (by omega : ¬ m.numVars = 0)]
        rw [fixVariablesInPlace_eq m (h m hm) [r] (by simp; omega)]; rfl
      · have h0' : m.numVars = 0 := by omega
        simp [h0']

/-- A full run of the loop on full-size tables. -/
theorem proveLoop_whole (ex : Exec) (hex : Exec.ok ex) (t : ℕ) (ht : 0 < t) (T : Transcript F) (D n : ℕ)
    (hn : 0 < n) (hD : 1 ≤ D) (P : List (F × List ℕ)) (aux : List (List F × List F)) (hprod : P ≠ [])
    (hchar : ∀ k, 0 < k → k ≤ D → (k : F) ≠ 0)
    (haux : ∀ k, k < D - 1 → ∃ w,
      aux[k]? = some ((List.range (k + 2)).map (fun i : ℕ => (i : F)), w) ∧
      barycentricWeights (.parallel t) ((List.range (k + 2)).map (fun i : ℕ => (i : F))) = some w)
    (tb : List (List F)) (htb : ∀ t ∈ tb, t.length = 2 ^ n)
    (hP : ∀ p ∈ P, p.2 ≠ [] ∧ p.2.length ≤ 5 ∧ p.2.length ≤ D ∧ ∀ i ∈ p.2, i < tb.length) (ts : T.State) :
    ∃ st' r st'',
      proveLoop ex T n ⟨[], 0, D, n, P, whole n tb, aux⟩ none ts
        = some ((honestLoop T D 0 n (polyVal P (whole n tb)) ts).1, st', some r,
            (honestLoop T D 0 n (polyVal P (whole n tb)) ts).2.2) ∧
      proverFinish st' r = some st'' ∧ workerFinish st' r = some st'' ∧
      st''.challenges = (honestLoop T D 0 n (polyVal P (whole n tb)) ts).2.1 ∧
      finalEvaluations st''
        = some (tb.map fun t => mle t (honestLoop T D 0 n (polyVal P (whole n tb)) ts).2.1) := by
  have hwf := whole_wf D n P tb htb hP
  obtain ⟨msgs, cs, st', ts', h1, -, -, h4, h5, -, ⟨ms, h7a, h7b, h7c⟩, -, h9⟩ :=
    proveLoop_spec ex hex t ht T n ⟨[], 0, D, n, P, whole n tb, aux⟩ none ts []
      (by simp) (by simp) (by simp) (fun m hm => (hwf.tables m hm).1)
      (fun _ _ m hm => by obtain ⟨t, _, rfl⟩ := List.mem_map.mp hm; exact hn)
      (by simpa [effMles] using hwf) hprod hD hchar haux
  simp only [effMles] at h9
  simp only [Option.toList_none, List.nil_append] at h1 h5 h7c
  have hcne : cs ≠ [] := by intro h; rw [h] at h4; simp at h4; omega
  obtain ⟨r, hr⟩ : ∃ r, cs.getLast? = some r := ⟨cs.getLast hcne, List.getLast?_eq_some_getLast hcne⟩
  have hcs : cs.dropLast ++ [r] = cs := by
    have hr' := hr
    rw [List.getLast?_eq_some_getLast hcne] at hr'
    simp only [Option.some.injEq] at hr'
    rw [← hr']; exact List.dropLast_append_getLast hcne
  obtain ⟨hf1, hf2⟩ := finish_eq st' r (by rw [h7a]; exact h7b)
  refine ⟨st', r, _, ?_, hf1, hf2, ?_, ?_⟩
  · rw [h1, h9, hr]
  · rw [h9]; simp only [h5, hcs]
  · rw [h9]
    rw [hr] at h7c
    simp only [effMles] at h7c
    unfold finalEvaluations
    simp only [h7a, h7c]
    have := foldl_bind_whole cs 0 tb
    rw [Nat.add_zero, h4] at this
    rw [this, mapM_some _ (fun m : Mle F => m.evals.getD 0 0)]
    · unfold whole
      rw [List.map_map, List.map_map]
      congr 1
      apply List.map_congr_left
      intro t ht
      simp [fixLow_full t cs (by rw [htb t ht, h4])]
    · intro m hm
      unfold whole at hm
      rw [List.map_map] at hm
      obtain ⟨t, ht, rfl⟩ := List.mem_map.mp hm
      simp [fixLow_full t cs (by rw [htb t ht, h4])]

/-- The single prover on full-size tables. -/
theorem prove_whole (ex : Exec) (hex : Exec.ok ex) (t : ℕ) (ht : 0 < t) (T : Transcript F) (D n : ℕ)
    (hn : 0 < n) (hD : 1 ≤ D) (P : List (F × List ℕ)) (hprod : P ≠ [])
    (hchar : ∀ k, 0 < k → k ≤ D → (k : F) ≠ 0)
    (tb : List (List F)) (htb : ∀ t ∈ tb, t.length = 2 ^ n)
    (hP : ∀ p ∈ P, p.2 ≠ [] ∧ p.2.length ≤ 5 ∧ p.2.length ≤ D ∧ ∀ i ∈ p.2, i < tb.length) (ts : T.State) :
    ∃ st'', prove t ex T D n P (whole n tb) ts
        = some (⟨(honestLoop T D 0 n (polyVal P (whole n tb)) (T.appendUsize (T.appendUsize ts n) D)).2.1,
            (honestLoop T D 0 n (polyVal P (whole n tb)) (T.appendUsize (T.appendUsize ts n) D)).1⟩, st'',
            (honestLoop T D 0 n (polyVal P (whole n tb)) (T.appendUsize (T.appendUsize ts n) D)).2.2) ∧
      finalEvaluations st''
        = some (tb.map fun u => mle u
            (honestLoop T D 0 n (polyVal P (whole n tb)) (T.appendUsize (T.appendUsize ts n) D)).2.1) := by
  obtain ⟨aux, haux, hauxs⟩ := aux_get (F := F) t D ht
  obtain ⟨st', r, st'', h1, h2, -, h4, h5⟩ := proveLoop_whole ex hex t ht T D n hn hD P aux hprod hchar hauxs
    tb htb hP (T.appendUsize (T.appendUsize ts n) D)
  refine ⟨st'', ?_, h5⟩
  unfold prove proverInit
  rw [if_neg (by omega), if_neg (by omega), haux]
  simp only [Option.bind_eq_bind, Option.bind_some]
  rw [h1]
  simp only [Option.bind_some, h2, h4]

/-- The tables of the second stage are the first-stage tables with the first variables bound. -/
theorem mergeTables_eq (k W : ℕ) (hW : W + 1 = 2 ^ k) (tb : List (List F)) (htb : ∀ t ∈ tb, t.length = 2 ^ k)
    (states : List (ProverState F)) (hlen : states.length = W + 1)
    (hst : ∀ w (h : w < states.length), (states[w]).mles = part 0 w tb) :
    mergeTables k states tb.length = some (whole k tb) := by
  unfold mergeTables
  rw [mapM_some _ (fun i => (⟨k, tb.getD i []⟩ : Mle F))]
  swap
  · intro i hi
    have hi' : i < tb.length := List.mem_range.mp hi
    have hget : tb.getD i [] = tb[i] := List.getD_eq_getElem _ _ hi'
    have hti := htb tb[i] (List.getElem_mem hi')
    have e : ∀ w (h : w < states.length), (states[w]).mles[i]? = some ⟨0, [tb[i].getD w 0]⟩ := by
      intro w hw
      rw [hst w hw, List.getElem?_eq_getElem (by simpa [part] using hi')]
      simp only [part, List.getElem_map]
      rw [slice_zero w tb[i] (by rw [hti, ← hW, ← hlen]; exact hw)]
    rw [mapM_some _ (fun s => ((s.mles[i]?.getD ⟨0, []⟩).evals).getD 0 0)]
    · simp only [Option.bind_eq_bind, Option.bind_some]
      congr 2
      apply List.ext_getElem
      · rw [List.length_map, hlen, hget, hti, hW]
      · intro w h1 h2
        rw [List.getElem_map, e w (by simpa using h1)]
        have hw : w < tb[i].length := by rw [hget] at h2; exact h2
        simp [hw, hi']
    · intro s hs
      obtain ⟨w, hw, rfl⟩ := List.getElem_of_mem hs
      rw [e w hw]
      rfl
  congr 1
  unfold whole
  apply List.ext_getElem
  · simp
  · intro i h1 h2
    simp only [List.getElem_map, List.getElem_range]
    rw [List.getD_eq_getElem _ _ (by simpa using h2)]

theorem proveBatch_whole (t : ℕ) (ht : 0 < t) (T : Transcript F) (D n k W : ℕ) (hW : W + 1 = 2 ^ k)
    (hn : 0 < n) (hD : 1 ≤ D) (P : List (F × List ℕ)) (hprod : P ≠ [])
    (hchar : ∀ k, 0 < k → k ≤ D → (k : F) ≠ 0)
    (tb : List (List F)) (htb : ∀ t ∈ tb, t.length = 2 ^ (n + k))
    (hP : ∀ p ∈ P, p.2 ≠ [] ∧ p.2.length ≤ 5 ∧ p.2.length ≤ D ∧ ∀ i ∈ p.2, i < tb.length) (ts : T.State) :
    ∃ st'', proveBatch t T D n k (fun w : Fin W => (P, part n w tb)) (P, part n W tb) ts
        = some (⟨(honestLoop T D 0 (n + k) (polyVal P (whole (n + k) tb))
              (T.appendUsize (T.appendUsize ts (n + k)) D)).2.1,
            (honestLoop T D 0 (n + k) (polyVal P (whole (n + k) tb))
              (T.appendUsize (T.appendUsize ts (n + k)) D)).1⟩, st'',
            (honestLoop T D 0 (n + k) (polyVal P (whole (n + k) tb))
              (T.appendUsize (T.appendUsize ts (n + k)) D)).2.2) ∧
      finalEvaluations st''
        = some (tb.map fun u => mle u
            (honestLoop T D 0 (n + k) (polyVal P (whole (n + k) tb))
              (T.appendUsize (T.appendUsize ts (n + k)) D)).2.1) := by
  obtain ⟨aux, haux, hauxs⟩ := aux_get (F := F) t D ht
  set ts0 := T.appendUsize (T.appendUsize ts (n + k)) D with hts0
  have hgood : ∀ w, w < 2 ^ k → Good D n n P aux [] none (part n w tb) ⟨[], 0, D, n, P, part n w tb, aux⟩ := by
    intro w hw
    refine ⟨rfl, rfl, by simp, rfl, rfl, rfl, rfl, rfl, ?_, rfl⟩
    intro m hm
    obtain ⟨u, hu, rfl⟩ := List.mem_map.mp hm
    exact ⟨slice_length n k w hw u (htb u hu), by simp⟩
  obtain ⟨main', ws', ch', h1, h2, h3, h4⟩ := lockstep_honest D n k W hW t ht T P aux hprod hchar hauxs n tb []
    none ts0 ⟨[], 0, D, n, P, part n W tb, aux⟩ (fun w => ⟨[], 0, D, n, P, part n w tb, aux⟩) htb hP
    (hgood W (by omega)) (fun w => hgood w (by omega))
  set h := honestLoop T D k n (polyVal P (whole (n + k) tb)) ts0 with hh
  obtain ⟨r, rfl⟩ := Option.ne_none_iff_exists'.mp (h2 (by omega))
  have hlen : h.2.1.length = n := (honestLoop_length T D k n _ ts0).2
  set tb' := tb.map fun u => fixLow u h.2.1 with htb'
  have htbl : ∀ u ∈ tb', u.length = 2 ^ k := by
    intro u hu
    obtain ⟨u, hu', rfl⟩ := List.mem_map.mp hu
    rw [fixLow_length u h.2.1 (n + k) (htb u hu') (by omega), hlen, Nat.add_sub_cancel_left]
  have hfin : ∀ (w : ℕ) (s : ProverState F), Good D 0 n P aux ([] ++ h.2.1) (some r) (part 0 w tb') s →
      proverFinish s r = some ⟨h.2.1, n, D, n, P, part 0 w tb', aux⟩ ∧
      workerFinish s r = some ⟨h.2.1, n, D, n, P, part 0 w tb', aux⟩ := by
    intro w s hs
    obtain ⟨a, b⟩ := finish_eq s r (fun m hm => (hs.tables m hm).1)
    have e : ({ s with challenges := s.challenges ++ [r], mles := s.mles.map (bindMle r) } : ProverState F)
        = ⟨h.2.1, n, D, n, P, part 0 w tb', aux⟩ := by
      have e1 := hs.hchs
      have e2 := hs.mles
      have e3 := hs.round
      simp only [Option.toList_some, List.nil_append, effMles] at e1 e2
      rw [e1, e2, hs.vars, hs.products, hs.degree, hs.aux, show s.round = n by omega]
    rw [e] at a b
    exact ⟨a, b⟩
  have hws : (List.ofFn ws').mapM (fun s => workerFinish s r)
      = some ((List.range W).map fun w => (⟨h.2.1, n, D, n, P, part 0 w tb', aux⟩ : ProverState F)) := by
    have : List.ofFn ws' = (List.finRange W).map ws' := by
      apply List.ext_getElem <;> simp
    rw [this, List.mapM_map]
    rw [mapM_some _ (fun w : Fin W => (⟨h.2.1, n, D, n, P, part 0 w tb', aux⟩ : ProverState F))]
    · congr 1
      apply List.ext_getElem <;> simp
    · intro w _
      exact (hfin w _ (h4 w)).2
  set states := (List.range (W + 1)).map fun w => (⟨h.2.1, n, D, n, P, part 0 w tb', aux⟩ : ProverState F)
    with hstates
  have hst : ((List.range W).map fun w => (⟨h.2.1, n, D, n, P, part 0 w tb', aux⟩ : ProverState F))
      ++ [⟨h.2.1, n, D, n, P, part 0 W tb', aux⟩] = states := by
    rw [hstates, List.range_succ, List.map_append]; rfl
  have hhead : states.head? = some ⟨h.2.1, n, D, n, P, part 0 0 tb', aux⟩ := by
    rw [hstates, List.head?_map, List.head?_range]; simp
  have hsplit := honestLoop_split T D n k (polyVal P (whole (n + k) tb)) ts0
  rw [← hh] at hsplit
  simp only at hsplit
  have hgf : (fun y => polyVal P (whole (n + k) tb) (h.2.1 ++ y)) = polyVal P (whole k tb') := by
    funext y
    have := polyVal_fix D k P h.2.1 tb (by rw [hlen]; exact htb) hP y
    rw [hlen] at this
    exact this
  rw [hgf] at hsplit
  rcases Nat.eq_zero_or_pos k with hk | hk
  · subst hk
    simp only [honestLoop, List.append_nil] at hsplit
    refine ⟨⟨h.2.1, n, D, n, P, part 0 0 tb', aux⟩, ?_, ?_⟩
    · unfold proveBatch
      rw [if_neg (by omega), if_neg (by omega)]
      simp only [Option.bind_eq_bind, haux, Option.bind_some, ← hts0, h1, hws, (hfin W main' h3).1, hst, hhead,
        if_true]
      rw [hsplit]
    · rw [hsplit]
      unfold finalEvaluations
      rw [mapM_some _ (fun m : Mle F => m.evals.getD 0 0)]
      · simp only [part, htb', List.map_map]
        congr 1
        apply List.map_congr_left
        intro u hu
        have hul : u.length = 2 ^ h.2.1.length := by rw [htb u hu, hlen, Nat.add_zero]
        simp [fixLow_full u h.2.1 hul, slice]
      · intro m hm
        simp only [part, htb', List.map_map] at hm
        obtain ⟨u, hu, rfl⟩ := List.mem_map.mp hm
        have hul : u.length = 2 ^ h.2.1.length := by rw [htb u hu, hlen, Nat.add_zero]
        have e : slice 0 0 (fixLow u h.2.1) = [mle u h.2.1] := by rw [fixLow_full u h.2.1 hul]; rfl
        simp only [Function.comp, e]
        rfl
  · obtain ⟨st', r2, st'', g1, -, g3, g4, g5⟩ := proveLoop_whole .serial (by trivial) t ht T D k hk hD P aux hprod
      hchar hauxs tb' htbl (by simpa [htb'] using hP) h.2.2
    have hm := mergeTables_eq k W hW tb' htbl states (by simp [hstates])
      (by intro w hw; simp [hstates])
    refine ⟨st'', ?_, ?_⟩
    · unfold proveBatch
      rw [if_neg (by omega), if_neg (by omega)]
      have hpl : (part 0 0 tb').length = tb'.length := by simp [part]
      simp only [Option.bind_eq_bind, haux, Option.bind_some, ← hts0, h1, hws, (hfin W main' h3).1, hst, hhead,
        if_neg (by omega : ¬ k = 0), hpl, hm, g1, g3, g4]
      rw [hsplit]
    · rw [g5, hsplit]
      simp only [htb', List.map_map]
      congr 1
      apply List.map_congr_left
      intro u hu
      rw [Function.comp, mle_append u h.2.1 _ (n + k) (htb u hu) (by omega)]

end Lemmas
