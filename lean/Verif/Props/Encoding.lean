import Verif.Lemmas.Basecode
import Verif.Lemmas.OneLevel
import Mathlib.Algebra.Field.ZMod
import Mathlib.Data.ZMod.Basic

/-! C44 and C45: the codes of the polynomial commitment and the switch to coefficients. -/

open Spec Model Lemmas

namespace Props

variable {F : Type} [Field F]

/-! ### C45 -/

/-- C45: `interpolate_over_boolean_hypercube` of a table with `2^n` entries, `n ≥ 1`, returns the `2^n` coefficients of the multilinear
extension: at every point the coefficient form has the value of the extension. -/
theorem C45_interpolate (n : ℕ) (hn : 0 < n) (v : List F) (hl : v.length = 2 ^ n) :
    ∃ c, interpolateHypercube v = some c ∧ c.length = 2 ^ n ∧ ∀ x, x.length = n → coeffForm c x = mle v x :=
  interpolate_spec n hn v hl

/-- C45: a table with one entry is outside the domain of the function: it panics (`chunk[1]` of a chunk of length one). -/
theorem C45_single_entry_panics (a : F) : interpolateHypercube [a] = none := by
  unfold interpolateHypercube
  rw [show [a].length = 2 ^ 0 by simp, log2Strict_pow]
  simp only [Option.bind_eq_bind, Option.bind_some]
  rw [show chunks 2 [a] = [[a]] by simp [chunks]]
  simp [List.mapM_cons, pairDiff]

/-- C45, one level: evaluating the one-level interpolation of a table at `c` interpolates linearly between the entries of each pair; at `0` and
`1` it gives back the entries at even and odd positions, so the one-level step loses nothing. -/
theorem C45_one_level (m : ℕ) (v : List F) (hl : v.length = 2 * m) :
    ∃ w, oneLevelInterp v = some w ∧
      (∀ c, oneLevelEval w c = some ((List.range m).map fun i => (1 - c) * v.getD (2 * i) 0 + c * v.getD (2 * i + 1) 0)) ∧
      oneLevelEval w 0 = some ((List.range m).map fun i => v.getD (2 * i) 0) ∧
      oneLevelEval w 1 = some ((List.range m).map fun i => v.getD (2 * i + 1) 0) := by
  obtain ⟨w, h1, h2, h3⟩ := oneLevelInterp_spec m v hl
  have key : ∀ c, oneLevelEval w c = some ((List.range m).map fun i => (1 - c) * v.getD (2 * i) 0 + c * v.getD (2 * i + 1) 0) := by
    intro c
    rw [oneLevelEval_eq m w h2]
    congr 1
    apply List.map_congr_left
    intro i hi
    rw [(h3 i (List.mem_range.mp hi)).1, (h3 i (List.mem_range.mp hi)).2]
    ring
  refine ⟨w, h1, key, ?_, ?_⟩
  · rw [key]; simp
  · rw [key]; simp

example : interpolateHypercube ([3, 5, 7, 11, 13, 17, 19, 23] : List ℚ) = some [3, 2, 4, 2, 10, 2, 2, -2] := by decide +kernel
example : oneLevelInterp ([3, 5, 7, 11] : List ℚ) = some [3, 2, 7, 4] := by decide +kernel

/-! ### C44 -/

theorem good_commute (S : CodeScheme F) (word : ℕ → List F → List F) (h : GoodCode S word) (k : ℕ) (hb : S.basecodeLog ≤ k)
    (hm : k + 1 ≤ S.maxLog) (coeffs : List F) (hl : coeffs.length = 2 ^ (k + 1)) (c : F) :
    ∃ v w w' v', S.encode (codeMessage S (k + 1) coeffs) = some v ∧ v.length = 2 ^ (k + 1 + S.rateLog) ∧ reverseIndexBits v = some w ∧
      foldCodeword S w c = some w' ∧ reverseIndexBits w' = some v' ∧ S.encode (codeMessage S k (topFold k coeffs c)) = some v' := by
  obtain ⟨v, h1, h2, h3⟩ := h.encode (k + 1) coeffs (by omega) hm hl
  have htl : (topFold k coeffs c).length = 2 ^ k := by simp [topFold]
  obtain ⟨v', h4, h5, h6⟩ := h.encode k (topFold k coeffs c) hb (by omega) htl
  refine ⟨v, word (k + 1) coeffs, word k (topFold k coeffs c), v', h1, h2, ?_, h.fold k coeffs c hb hm hl, ?_, h4⟩
  · rw [reverseIndexBits_eq 0 _ v h2, h3]
  · rw [reverseIndexBits_eq 0 (k + S.rateLog) _ (h.length k _ hb (by omega) htl), ← h6, bitrev_bitrev 0 _ _ h5]

/-- C44 for the Reed-Solomon code after `setup` and `trim`, for every message of length `2^(k+1)` and challenge: folding the (bit-reversed) codeword
gives the (bit-reversed) codeword of the folded message. The generator of the `2`-adic subgroup is a primitive root (`two_adic_generator`). -/
theorem C44_rs_fold (spec : RsSpec) (gen : ℕ → F) (gamma : F) (setupLog maxLog : ℕ)
    (hg : IsPrimitiveRoot (gen (setupLog + spec.rateLog)) (2 ^ (setupLog + spec.rateLog))) (hgamma : gamma ≠ 0) (h2 : (2 : F) ≠ 0)
    (hm : maxLog ≤ setupLog) (hb : spec.basecodeLog ≤ maxLog) :
    ∃ S, rsScheme spec gen gamma setupLog maxLog = some S ∧
      ∀ k m c, spec.basecodeLog ≤ k → k + 1 ≤ maxLog → m.length = 2 ^ (k + 1) →
        ∃ v w folded w' v', S.encode m = some v ∧ reverseIndexBits v = some w ∧ foldMessage m c = some folded ∧
          foldCodeword S w c = some w' ∧ reverseIndexBits w' = some v' ∧ S.encode folded = some v' := by
  obtain ⟨S, e1, e2, e3, e4, e5, e6, good⟩ := rsScheme_good spec gen gamma setupLog maxLog hg hgamma h2 hm hb
  refine ⟨S, e1, ?_⟩
  intro k m c hk hk' hl
  obtain ⟨v, w, w', v', f1, f2, f3, f4, f5, f6⟩ := good_commute S _ good k (by omega) (by omega) (bitrev 0 (k + 1) m) (bitrev_length _ _ _) c
  unfold codeMessage at f1 f6
  rw [e6] at f1 f6
  simp only [Bool.false_eq_true, if_false] at f1 f6
  rw [bitrev_bitrev 0 _ _ hl] at f1
  refine ⟨v, w, _, w', v', f1, f3, foldMessage_eq k m hl c, f4, f5, ?_⟩
  rw [← f6, ← bitrev_topFold, bitrev_bitrev 0 _ _ hl]

/-- C44 for the Reed-Solomon code: the codeword of a message is the list of values of the polynomial with these coefficients on a coset of the
group of `2^(k+rate)`-th roots of unity, and the verifier's folding coefficients at every level and position it asks for are the prover's. -/
theorem C44_rs_codeword (spec : RsSpec) (gen : ℕ → F) (gamma : F) (setupLog maxLog : ℕ)
    (hg : IsPrimitiveRoot (gen (setupLog + spec.rateLog)) (2 ^ (setupLog + spec.rateLog))) (hgamma : gamma ≠ 0) (h2 : (2 : F) ≠ 0)
    (hm : maxLog ≤ setupLog) (hb : spec.basecodeLog ≤ maxLog) :
    ∃ S, rsScheme spec gen gamma setupLog maxLog = some S ∧
      (∀ k m, spec.basecodeLog ≤ k → k ≤ maxLog → m.length = 2 ^ k →
        ∃ v, S.encode m = some v ∧ v.length = 2 ^ (k + spec.rateLog) ∧ ∀ i, i < 2 ^ (k + spec.rateLog) →
          v.getD i 0 = polyEval m (gamma ^ 2 ^ (maxLog - k) * (gen (setupLog + spec.rateLog) ^ 2 ^ (setupLog - k)) ^ i)) ∧
      (∀ level i, spec.basecodeLog + spec.rateLog ≤ level → level < maxLog + spec.rateLog → i < 2 ^ level →
        ∃ x, S.proverCoeffs level i = some x ∧ S.verifierCoeffs level i = some x) := by
  obtain ⟨S, e1, e2, e3, e4, e5, e6, good⟩ := rsScheme_good spec gen gamma setupLog maxLog hg hgamma h2 hm hb
  refine ⟨S, e1, ?_, ?_⟩
  · intro k m hk hk' hl
    obtain ⟨v, f1, f2, f3⟩ := good.encode k (bitrev 0 k m) (by omega) (by omega) (bitrev_length _ _ _)
    unfold codeMessage at f1
    rw [e6] at f1
    simp only [Bool.false_eq_true, if_false] at f1
    rw [bitrev_bitrev 0 _ _ hl] at f1
    rw [e2] at f2 f3
    refine ⟨v, f1, f2, ?_⟩
    intro i hi
    have hv : v = bitrev 0 (k + spec.rateLog) (bitrev 0 (k + spec.rateLog) v) := (bitrev_bitrev 0 _ _ f2).symm
    rw [hv, f3, bitrev_getD _ _ _ _ hi, rsWord_getD _ _ _ _ _ _ _ (revBits_lt _ _), revBits_revBits _ _ hi, bitrev_bitrev 0 _ _ hl]
    unfold rootTower
    rw [show setupLog + spec.rateLog - (k + spec.rateLog) = setupLog - k by omega]
  · intro level i h1 h3 h4
    exact good.coeffs level i (by omega) (by omega) h4

/-- C44 for the random foldable code: its messages fold left and right halves, so the folded message is `fold_message` of the bit-reversed message,
reversed back. The table entries read off the key stream must be non-zero (`batch_multiplicative_inverse` panics otherwise). -/
theorem C44_basecode_fold [DecidableEq F] (spec : BasecodeSpec) (flat : ℕ → F) (setupLog maxLog : ℕ) (h2 : (2 : F) ≠ 0)
    (hflat : ∀ i, i < 2 ^ (spec.rateLog + setupLog) → flat i ≠ 0) (hpos : 0 < spec.rateLog + setupLog) (hm : maxLog ≤ setupLog)
    (hb : spec.basecodeLog ≤ maxLog) :
    ∃ S, basecodeScheme spec flat setupLog maxLog = some S ∧
      ∀ k m c, spec.basecodeLog ≤ k → k + 1 ≤ maxLog → m.length = 2 ^ (k + 1) →
        ∃ v w mr fr folded w' v', S.encode m = some v ∧ reverseIndexBits v = some w ∧
          reverseIndexBits m = some mr ∧ foldMessage mr c = some fr ∧ reverseIndexBits fr = some folded ∧
          foldCodeword S w c = some w' ∧ reverseIndexBits w' = some v' ∧ S.encode folded = some v' := by
  obtain ⟨S, e1, e2, e3, e4, e5, e6, good⟩ := basecodeScheme_good spec flat setupLog maxLog h2 hflat hpos hm hb
  refine ⟨S, e1, ?_⟩
  intro k m c hk hk' hl
  obtain ⟨v, w, w', v', f1, f2, f3, f4, f5, f6⟩ := good_commute S _ good k (by omega) (by omega) m hl c
  unfold codeMessage at f1 f6
  rw [e6] at f1 f6
  simp only [if_true] at f1 f6
  refine ⟨v, w, bitrev 0 (k + 1) m, bitrev 0 k (topFold k m c), topFold k m c, w', v', f1, f3, reverseIndexBits_eq 0 _ m hl, ?_, ?_, f4, f5, f6⟩
  · rw [foldMessage_eq k _ (bitrev_length _ _ _), bitrev_topFold]
  · rw [reverseIndexBits_eq 0 k _ (bitrev_length _ _ _), bitrev_bitrev 0 _ _ (by simp [topFold])]

/-- C44 for the random foldable code: the verifier, which recomputes the table entry from the key stream, uses the prover's coefficients. -/
theorem C44_basecode_coeffs [DecidableEq F] (spec : BasecodeSpec) (flat : ℕ → F) (setupLog maxLog : ℕ) (h2 : (2 : F) ≠ 0)
    (hflat : ∀ i, i < 2 ^ (spec.rateLog + setupLog) → flat i ≠ 0) (hpos : 0 < spec.rateLog + setupLog) (hm : maxLog ≤ setupLog)
    (hb : spec.basecodeLog ≤ maxLog) :
    ∃ S, basecodeScheme spec flat setupLog maxLog = some S ∧
      ∀ level i, spec.basecodeLog + spec.rateLog ≤ level → level < maxLog + spec.rateLog → i < 2 ^ level →
        ∃ x, S.proverCoeffs level i = some x ∧ S.verifierCoeffs level i = some x := by
  obtain ⟨S, e1, e2, e3, e4, e5, e6, good⟩ := basecodeScheme_good spec flat setupLog maxLog h2 hflat hpos hm hb
  exact ⟨S, e1, fun level i h1 h3 h4 => good.coeffs level i (by omega) (by omega) h4⟩

/-- C44, negation for key streams that hit zero: `setup` of the random foldable code panics. `base_from_raw_bytes` adds up the bytes of a block, so
zero is not excluded. -/
theorem C44_basecode_zero_panics [DecidableEq F] (spec : BasecodeSpec) (flat : ℕ → F) (setupLog maxLog i : ℕ)
    (hi : i < 2 ^ (spec.rateLog + setupLog)) (h0 : flat i = 0) : basecodeScheme spec flat setupLog maxLog = none := by
  unfold basecodeScheme basecodeTables
  rw [if_pos (Or.inr ⟨i, List.mem_range.mpr hi, by rw [h0]; simp⟩)]
  rfl

instance fact_prime_17 : Fact (Nat.Prime 17) := ⟨by decide +kernel⟩

/-- The hypotheses of `C44_rs_fold` hold for the field with 17 elements: `3` generates the units, `setupLog = 3` and rate `1/2`. -/
example : IsPrimitiveRoot (3 : ZMod 17) (2 ^ (3 + 1)) ∧ (3 : ZMod 17) ≠ 0 ∧ (2 : ZMod 17) ≠ 0 := by
  refine ⟨?_, by decide +kernel, by decide +kernel⟩
  rw [IsPrimitiveRoot.iff_orderOf]
  exact orderOf_eq_prime_pow (by decide +kernel) (by decide +kernel)

example : (do
    let S ← rsScheme ⟨2, 1, 1⟩ (fun k => (3 : ZMod 17) ^ 2 ^ (4 - k)) 3 3 2
    let v ← S.encode [1, 5, 7, 2]
    let w ← reverseIndexBits v
    let w' ← foldCodeword S w 6
    let m' ← foldMessage [1, 5, 7, 2] (6 : ZMod 17)
    let v' ← S.encode m'
    some (m', (reverseIndexBits v') == some w')) = some ([14, 2], true) := by decide +kernel

example : (do
    let S ← basecodeScheme ⟨2, 1, 1⟩ (fun k => (k + 1 : ZMod 17)) 2 2
    let v ← S.encode [1, 5, 7, 2]
    let w ← reverseIndexBits v
    let w' ← foldCodeword S w 6
    let v' ← S.encode [1 + 6 * 7, 5 + 6 * 2]
    some ((reverseIndexBits v') == some w')) = some true := by decide +kernel

end Props
