import Verif.Model.GraphRun
import Verif.Spec.Graph

/-!
What the values of a dataflow graph are, and what it means that claims travel along its edges.
-/

namespace Spec

open Model

variable {L V S F : Type}

/-- The edge carries the value `v`: the input of the model it refers to, or the output of the node it refers to. -/
def Carries (input : List V) (val : ℕ → List V) (e : Edge) (v : V) : Prop :=
  match e.node with
  | none => input[e.index]? = some v
  | some a => (val a)[e.index]? = some v

/-- The outputs `val` of the nodes are what the operations give on the values carried by their input edges. -/
def Dataflow (eval : L → List V → Option (List V)) (g : Graph L) (input : List V) (val : ℕ → List V) : Prop :=
  ∀ b m, (b, m) ∈ g → ∃ ins, List.Forall₂ (Carries input val) m.inputs ins ∧ eval m.op ins = some (val b)

/-- One call of a layer's prover or verifier: the state before, the node, the claims about its outputs, the state after, the claims about its inputs. -/
structure LayerCall (S F : Type) where
  before : S
  id : ℕ
  outputs : List (Claim F)
  after : S
  inputs : List (Claim F)

/-- The calls follow each other from the state `s` to the state `s'`. -/
def Follows (s : S) : List (LayerCall S F) → S → Prop
  | [], s' => s = s'
  | c :: cs, s' => c.before = s ∧ Follows c.after cs s'

/-- Where an input edge leads after nodes `rids` have been put behind the outputs of node `id`, one for each: an edge from output `i` of `id` now comes from the output
of the `i`-th of them, every other edge is unchanged. -/
def redirect (id : ℕ) (rids : List ℕ) (e : Edge) : Edge :=
  if e.node = some id then ⟨rids[e.index]?, 0⟩ else e

end Spec
