import Verif.Model.Tensor

/-! What it means that a layer announces the shapes of its outputs (C103). -/

namespace Spec

open Model

/-- The announced shapes are, one by one, those of the computed tensors. -/
def Announced {α : Type} (shapes : List (List ℕ)) (outs : List (Tensor α)) : Prop := outs.map (fun t => t.shape) = shapes

end Spec
