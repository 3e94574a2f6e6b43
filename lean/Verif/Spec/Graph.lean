import Verif.Model.Graph
import Mathlib.Logic.Relation

/-!
What it means for an order of the nodes of a graph to respect the edges, for a graph to have a cycle, and for its edges to be recorded at both ends.
-/

namespace Spec

open Model

variable {L : Type}

/-- The node `b` of the graph has an input that is an output of the node `a` of the graph. -/
def TakesFrom (g : Graph L) (b a : ℕ) : Prop :=
  (∃ n, (b, n) ∈ g ∧ ∃ e ∈ n.inputs, e.node = some a) ∧ ∃ n, (a, n) ∈ g

/-- An output of the node `a` of the graph is recorded as an input of the node `b` of the graph. -/
def GivesTo (g : Graph L) (a b : ℕ) : Prop :=
  (∃ n, (a, n) ∈ g ∧ ∃ wire ∈ n.outputs, ∃ e ∈ wire, e.node = some b) ∧ ∃ n, (b, n) ∈ g

/-- `x` is on a cycle of `r`, or one can get from it to a cycle. -/
def ReachesCycle (r : ℕ → ℕ → Prop) (x : ℕ) : Prop := ∃ y, Relation.ReflTransGen r x y ∧ Relation.TransGen r y y

/-- The order lists nodes of the graph, each at most once, and each after all the nodes it is related to. -/
structure Respects (g : Graph L) (r : ℕ → ℕ → Prop) (order : List ℕ) : Prop where
  once : order.Nodup
  nodes : ∀ x ∈ order, ∃ n, (x, n) ∈ g
  before : ∀ done x rest, order = done ++ x :: rest → ∀ y, r x y → y ∈ done

/-- Every connection is recorded at both its ends, exactly once: output `i` of `a` lists input `j` of `b` once when that input is output `i` of `a` and not at all
otherwise; and every input that is an output of a node refers to an existing output of an existing node. -/
structure Symmetric (g : Graph L) : Prop where
  out : ∀ (a : ℕ) (n : Node L) (i : ℕ) (wire : List Edge), (a, n) ∈ g → n.outputs[i]? = some wire → ∀ b j : ℕ,
    ((∃ m : Node L, (b, m) ∈ g ∧ m.inputs[j]? = some ⟨some a, i⟩) → wire.count ⟨some b, j⟩ = 1) ∧
    ((¬∃ m : Node L, (b, m) ∈ g ∧ m.inputs[j]? = some ⟨some a, i⟩) → wire.count ⟨some b, j⟩ = 0)
  inp : ∀ (b : ℕ) (m : Node L) (j a i : ℕ), (b, m) ∈ g → m.inputs[j]? = some ⟨some a, i⟩ → ∃ n wire, (a, n) ∈ g ∧ n.outputs[i]? = some wire

/-- The graphs built from the empty one by successful calls: nodes are added with outputs not yet connected, under a fresh id. `numOutputs` and `numInputs` are as in
`addConsecutive`. -/
inductive Built (numOutputs : L → ℕ → ℕ) (numInputs : ℕ) : Graph L → Prop
  | empty : Built numOutputs numInputs []
  | node {g g' : Graph L} {inputs : List Edge} {op : L} {id : ℕ} : Built numOutputs numInputs g →
      addNode g (Node.new numOutputs inputs op) = (g', some id) → Built numOutputs numInputs g'
  | consecutive {g g' : Graph L} {op : L} {prev : Option ℕ} {id : ℕ} : Built numOutputs numInputs g →
      addConsecutive numOutputs numInputs g op prev = (g', some id) → Built numOutputs numInputs g'
  | withId {g g' : Graph L} {inputs : List Edge} {op : L} {id : ℕ} : Built numOutputs numInputs g → (∀ n, (id, n) ∉ g) →
      addNodeWithId g id (Node.new numOutputs inputs op) = (g', true) → Built numOutputs numInputs g'
  | route {g g' : Graph L} {edges : Option (List Edge)} : Built numOutputs numInputs g →
      routeOutput g edges = (g', true) → Built numOutputs numInputs g'

end Spec
