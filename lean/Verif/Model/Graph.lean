import Verif.Model.Commit
import Mathlib.Data.List.Sort

/-!
The graph of a model: building it (`zkml/src/model/mod.rs`), iterating over it (`zkml/src/model/iterator.rs`), running it, and passing claims backwards along its
edges (`zkml/src/layers/provable/mod.rs`, `zkml/src/iop/{prover,verifier}.rs`).

Simplifications: layers are an abstract type `L`; hash maps are association lists, whose order stands for the arbitrary order of a hash map; errors that leave the
model half-updated return the updated model together with `false`; other errors are `none`.
-/

namespace Model

/-- `insert` of a map: the value is replaced in place or added at the end. -/
def mapSet {α β : Type} [DecidableEq α] (k : α) (v : β) : List (α × β) → List (α × β)
  | [] => [(k, v)]
  | (k', v') :: rest => if k' = k then (k, v) :: rest else (k', v') :: mapSet k v rest

/-- `Edge`, provable/mod.rs:38-46: `node = none` for an input or an output of the model. -/
structure Edge where
  node : Option ℕ
  index : ℕ
deriving DecidableEq

/-- `Node`, provable/mod.rs:69-76; an `OutputWire` is the list of its edges (provable/mod.rs:62-66). -/
structure Node (L : Type) where
  inputs : List Edge
  outputs : List (List Edge)
  op : L
deriving DecidableEq

/-- `Model::nodes`, model/mod.rs:28-34. -/
abbrev Graph (L : Type) := List (ℕ × Node L)

variable {L : Type}

/-- `Node::new`, provable/mod.rs:106-109; `numOutputs` is `OpInfo::num_outputs`. -/
def Node.new (numOutputs : L → ℕ → ℕ) (inputs : List Edge) (op : L) : Node L :=
  ⟨inputs, List.replicate (numOutputs op inputs.length) [], op⟩

/-- One step of the loop of `add_node_with_id` and of `route_output`: the edge `e` is pushed on output `i` of node `a`, model/mod.rs:315-330, 348-361. -/
def pushEdge (g : Graph L) (a i : ℕ) (e : Edge) : Option (Graph L) := do
  let n ← mapGet a g
  if i < n.outputs.length then some (mapSet a { n with outputs := n.outputs.modify i (· ++ [e]) } g) else none

/-- The loop of `add_node_with_id`, model/mod.rs:313-332, from input `i` on. The graph is returned also after an error. -/
def addEdges (id : ℕ) : ℕ → List Edge → Graph L → Graph L × Bool
  | _, [], g => (g, true)
  | i, e :: es, g =>
    match e.node with
    | none => addEdges id (i + 1) es g
    | some a =>
      match pushEdge g a e.index ⟨some id, i⟩ with
      | none => (g, false)
      | some g' => addEdges id (i + 1) es g'

/-- `add_node_with_id`, model/mod.rs:310-337. -/
def addNodeWithId (g : Graph L) (id : ℕ) (node : Node L) : Graph L × Bool :=
  let r := addEdges id 0 node.inputs g
  if r.2 then (mapSet id node r.1, true) else r

/-- The id chosen by `add_node`, model/mod.rs:301-303. -/
def freshId (g : Graph L) : Option ℕ :=
  (List.range (g.length + 1)).find? fun i => (mapGet i g).isNone

/-- `add_node`, model/mod.rs:300-306: the new model, and the id of the new node when there is no error. -/
def addNode (g : Graph L) (node : Node L) : Graph L × Option ℕ :=
  match freshId g with
  | none => (g, none)
  | some id =>
    let r := addNodeWithId g id node
    if r.2 then (r.1, some id) else (r.1, none)

/-- `add_consecutive_layer`, model/mod.rs:270-296; `numInputs` is `self.input_shapes.len()`. -/
def addConsecutive (numOutputs : L → ℕ → ℕ) (numInputs : ℕ) (g : Graph L) (op : L) (prev : Option ℕ) : Graph L × Option ℕ :=
  match prev with
  | none => addNode g (Node.new numOutputs ((List.range numInputs).map fun i => ⟨none, i⟩) op)
  | some a =>
    match mapGet a g with
    | none => (g, none)
    | some n => addNode g (Node.new numOutputs ((List.range n.outputs.length).map fun i => ⟨some a, i⟩) op)

/-- The loop of `route_output`, model/mod.rs:344-362, from output `k` on. -/
def routeEdges : ℕ → List Edge → Graph L → Graph L × Bool
  | _, [], g => (g, true)
  | k, e :: es, g =>
    match e.node with
    | none => (g, false)
    | some a =>
      match pushEdge g a e.index ⟨none, k⟩ with
      | none => (g, false)
      | some g' => routeEdges (k + 1) es g'

/-- `route_output`, model/mod.rs:342-381. -/
def routeOutput (g : Graph L) : Option (List Edge) → Graph L × Bool
  | some edges => routeEdges 0 edges g
  | none =>
    match g.find? fun x => x.2.outputs.all (· == []) with
    | none => (g, false)
    | some x => (mapSet x.1 { x.2 with outputs := x.2.outputs.mapIdx fun i _ => [⟨none, i⟩] } g, true)

/-- `output_nodes`, model/mod.rs:385-400. -/
def outputNodes (g : Graph L) : List (ℕ × Node L) :=
  g.filter fun x => x.2.outputs.all fun wire => wire.any fun e => e.node.isNone

/-! ### Iteration -/

/-- The nodes a node waits for in the forward direction: iterator.rs:152-156. -/
def forwardDeps (g : Graph L) (id : ℕ) : List ℕ :=
  ((mapGet id g).map fun n => n.inputs.filterMap (·.node)).getD []

/-- The nodes a node waits for in the backward direction: iterator.rs:157-166. -/
def backwardDeps (g : Graph L) (id : ℕ) : List ℕ :=
  ((mapGet id g).map fun n => n.outputs.flatten.filterMap (·.node)).getD []

/-- Repeated `NodeIterator::next`, iterator.rs:147-181, until it returns `None`: the first unvisited node (in increasing order) none of whose dependencies is
unvisited is yielded and removed. The fuel is the number of unvisited nodes; each call removes one, so it is never short. -/
def nodeOrder (deps : ℕ → List ℕ) : ℕ → List ℕ → List ℕ
  | 0, _ => []
  | fuel + 1, unvisited =>
    match unvisited.find? fun x => (deps x).all fun d => !unvisited.contains d with
    | none => []
    | some x => x :: nodeOrder deps fuel (unvisited.erase x)

/-- The nodes in the order of a `BTreeSet`, iterator.rs:49-52. -/
def sortedIds (g : Graph L) : List ℕ := (g.map (·.1)).insertionSort (· ≤ ·)

/-- All the nodes yielded by `to_forward_iterator`, iterator.rs:63-68 (and 47-52). -/
def forwardOrder (g : Graph L) : List ℕ := nodeOrder (forwardDeps g) g.length (sortedIds g)

/-- All the nodes yielded by `to_backward_iterator`, iterator.rs:70-75 (and 54-59). -/
def backwardOrder (g : Graph L) : List ℕ := nodeOrder (backwardDeps g) g.length (sortedIds g)

/-- `IntoNodeIterator::next` repeated, iterator.rs:186-197: ids are popped from the end of the vector and the nodes removed from the map; `none` is the panic
for a missing node. The fuel is the number of ids. -/
def popNodes : ℕ → List ℕ → Graph L → Option (List (ℕ × Node L))
  | 0, _, _ => some []
  | fuel + 1, ids, g =>
    match ids.getLast? with
    | none => some []
    | some id => do
      let r ← mapRemove id g
      let rest ← popNodes fuel ids.dropLast r.2
      some ((id, r.1) :: rest)

/-- `into_forward_iterator`, iterator.rs:21-27, 126-143: the ids of the borrowing iterator, reversed, then popped. -/
def intoForward (g : Graph L) : Option (List (ℕ × Node L)) := popNodes (forwardOrder g).length (forwardOrder g).reverse g

/-- `into_backward_iterator`, iterator.rs:29-35, 126-143. -/
def intoBackward (g : Graph L) : Option (List (ℕ × Node L)) := popNodes (backwardOrder g).length (backwardOrder g).reverse g

end Model
