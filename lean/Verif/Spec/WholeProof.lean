import Verif.Spec.GraphRun
import Verif.Spec.Mle
import Verif.Model.Tensor

/-!
What it means that a claim about a tensor is true, and that the verification of a layer is sound in a run.
-/

namespace Spec

open Model

variable {S F : Type} [Field F]

/-- The claim is true of the tensor: its point has a coordinate for every variable, and its value is that of the multilinear extension of the data there. -/
def Holds (t : Tensor F) (c : Claim F) : Prop :=
  t.data.length = 2 ^ c.point.length ∧ mle t.data c.point = c.eval

/-- Every one of the tensors has a claim, and it is true. -/
def AllClaimed (ts : List (Tensor F)) (cls : List (Claim F)) : Prop :=
  ∀ (j : ℕ) (t : Tensor F), ts[j]? = some t → ∃ cl, cls[j]? = some cl ∧ Holds t cl

/-- The claims about those of the tensors that have one are true. -/
def ClaimsTrue (ts : List (Tensor F)) (cls : List (Claim F)) : Prop :=
  ∀ (i : ℕ) (t : Tensor F) (cl : Claim F), ts[i]? = some t → cls[i]? = some cl → Holds t cl

/-- The verification of a layer with these inputs and outputs was sound: if the claims about the inputs it returned are true then so were the claims about the outputs it was given. -/
def SoundCall (ins outs : List (Tensor F)) (c : LayerCall S F) : Prop :=
  AllClaimed ins c.inputs → ClaimsTrue outs c.outputs

/-- The tensors recorded for the nodes are those of an inference: every node has the tensors on its input edges as inputs, one tensor for every output, and the outputs of the model are
those of the nodes connected to them. -/
structure HonestTrace {L : Type} (g : Graph L) (inputs outputs : List (Tensor F)) (trace : ℕ → List (Tensor F) × List (Tensor F)) : Prop where
  ins : ∀ b m, (b, m) ∈ g → List.Forall₂ (Carries inputs fun a => (trace a).2) m.inputs (trace b).1
  outs : ∀ a n, (a, n) ∈ g → (trace a).2.length = n.outputs.length
  results : ∀ (a : ℕ) (n : Node L) (i k : ℕ) (w : List Edge), (a, n) ∈ g → n.outputs[i]? = some w → (⟨none, k⟩ : Edge) ∈ w → ∃ t, (trace a).2[i]? = some t ∧ outputs[k]? = some t

/-- Prover and verifier of a layer stay in step: `R` relates the prover's state to the verifier's. From true claims about the outputs the prover makes a proof, the verifier accepts it, and both
are left with the same claims about the inputs, which are true. -/
def LayerInStep {P Sp Sv : Type} (R : Sp → Sv → Prop) (prove : List (Claim F) → Sp → Option (List (Claim F) × P × Sp)) (verify : P → List (Claim F) → Sv → Option (List (Claim F) × Sv))
    (ins outs : List (Tensor F)) : Prop :=
  ∀ (claims : List (Claim F)) (sp : Sp) (sv : Sv), R sp sv → List.Forall₂ Holds outs claims →
    ∃ ic p sp' sv', prove claims sp = some (ic, p, sp') ∧ verify p claims sv = some (ic, sv') ∧ R sp' sv' ∧ AllClaimed ins ic

/-- Prover and verifier draw the same challenges, as many as asked for. -/
def DrawInStep {Sp Sv : Type} (R : Sp → Sv → Prop) (dp : Sp → ℕ → List F × Sp) (dv : Sv → ℕ → List F × Sv) : Prop :=
  ∀ sp sv n, R sp sv → (dp sp n).1 = (dv sv n).1 ∧ (dp sp n).1.length = n ∧ R (dp sp n).2 (dv sv n).2

end Spec
