import Verif.Model.GraphRun
import Verif.Model.Quant

/-!
Choosing scaling factors by observing inferences, `zkml/src/quantization/strategy.rs`.

Simplifications: a float tensor is the list of its values, which are exact rationals; the conversions to `f64` and back are dropped; a hash map is a function; the samples are
given, when there are none the code draws ten at random (strategy.rs:80-95); errors and panics are `none`.
-/

namespace Model

variable {L : Type}

/-- `InferenceTracker`, strategy.rs:147-150. -/
abbrev Tracker := ℕ → ℕ → Option (List ℚ)

/-- `InferenceTracker::track`, strategy.rs:158-163. -/
def Tracker.track (t : Tracker) (id i : ℕ) (data : List ℚ) : Tracker :=
  fun a j => if a = id ∧ j = i then some ((t a j).getD [] ++ data) else t a j

/-- `INPUT_TRACKING_ID`, strategy.rs:70. -/
def inputTrackingId : ℕ := 10000

/-- All the tensors of one list, under one id: strategy.rs:104-114 for the inputs, model/mod.rs:459-463 for the outputs of a node. -/
def Tracker.trackAll (t : Tracker) (id : ℕ) (data : List (List ℚ)) : Tracker :=
  data.zipIdx.foldl (fun t x => t.track id x.2 x.1) t

/-- One step of `run_with_tracker` with a tracker, model/mod.rs:423-478. -/
def trackedStep (eval : L → List (List ℚ) → Option (List (List ℚ))) (g : Graph L) (input : List (List ℚ)) (st : List (ℕ × List (List ℚ)) × Tracker) (id : ℕ) :
    Option (List (ℕ × List (List ℚ)) × Tracker) := do
  let n ← mapGet id g
  let ins ← n.inputs.mapM (edgeValue input st.1)
  let out ← eval n.op ins
  some (mapSet id out st.1, st.2.trackAll id out)

/-- One sample, strategy.rs:102-118: `sizes` are the sizes of the inputs of the model; `Tensor::new` panics if the data does not have that size. The run also collects the
outputs of the model, model/mod.rs:479-526. -/
def observeSample (eval : L → List (List ℚ) → Option (List (List ℚ))) (g : Graph L) (sizes : List ℕ) (t : Tracker) (sample : List (List ℚ)) : Option Tracker := do
  let input := (sample.zip sizes).map (·.1)
  if (sample.zip sizes).all fun x => x.1.length == x.2 then do
    let st ← (forwardOrder g).foldlM (trackedStep eval g input) ([], t.trackAll inputTrackingId input)
    let acc ← (outputNodes g).foldlM (collectNode st.1) []
    let _ ← outputsInOrder acc
    some st.2
  else none

/-- The loop over the samples, strategy.rs:100-118. -/
def observe (eval : L → List (List ℚ) → Option (List (List ℚ))) (g : Graph L) (sizes : List ℕ) (samples : List (List (List ℚ))) : Option Tracker :=
  samples.foldlM (observeSample eval g sizes) fun _ _ => none

/-- `InferenceTracker::distribution_info`, strategy.rs:166-187; without data the code panics, with an empty tensor it returns NaN, both are `none`. -/
def Tracker.distributionInfo (t : Tracker) (id i : ℕ) : Option (ℚ × ℚ) := do
  match ← t id i with
  | [] => none
  | v :: vs => some (vs.foldl min v, vs.foldl max v)

/-- `InferenceObserver::scaling_factors_for_node`, strategy.rs:132-144. -/
def Tracker.factors (bl : ℕ) (t : Tracker) (id numOutputs : ℕ) : Option (List ScalingFactor) :=
  (List.range numOutputs).mapM fun i => do
    let d ← t.distributionInfo id i
    some (ScalingFactor.fromAbsoluteMax bl (max |d.1| |d.2|) none)

/-- The factors of the inputs of the model, strategy.rs:121-128. -/
def Tracker.inputFactors (bl : ℕ) (t : Tracker) (numInputs : ℕ) : Option (List ScalingFactor) :=
  (List.range numInputs).mapM fun i => do
    let d ← t.distributionInfo inputTrackingId i
    some (ScalingFactor.fromAbsoluteMax bl (max |d.1| |d.2|) none)

end Model
