import Verif.Model.Tree
import Verif.Spec.TextOps

/-! Text that hides nothing (C83). -/
namespace JH.Spec

/-- Text without invisible characters. -/
def ShowsAll (t : Str) : Prop := ∀ c ∈ t, ¬ Invisible c

/-- If this node is a text, it has no invisible characters. -/
def TextVisible : Node → Prop
  | .text t => ShowsAll t
  | _ => True

/-- If this node is an element, the values of its attributes have no invisible characters. -/
def AttrsVisible : Node → Prop
  | .elem _ _ as _ _ _ => ∀ a ∈ as, ∀ v, a.2 = some v → ShowsAll v
  | _ => True

end JH.Spec
