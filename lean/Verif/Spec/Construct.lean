import Verif.Spec.Removing
import Verif.Model.Construct
import Verif.Props.SanMain
/-! What a policy promises about a tree. -/
namespace JH.Spec

/-- The node is as the policy wants it: an element is allowed, with allowed attributes only; an address is what its rule makes of some address, a `style`
what the style sanitizer makes of some style; comments, processing instructions and doctypes are there only if the policy does not drop them. -/
def SafeNode (E : UrlEnv) (C : SanCfg) : Node → Prop
  | .elem name _ as _ _ _ =>
    E.U.lower name ∈ C.allowedTags ∧
    (∀ q ∈ as, AttrAllowed E.U.lower C.allowedAttrs C.forceRel name q.1) ∧
    (∀ k v, (k, v) ∈ as → k ≠ c%"rel" → k ≠ c%"style" → ∀ kind, CheckedAs E.U C.url (E.U.lower name) as k kind →
      ∃ rule u s, urlRuleFor C.url (E.U.lower name) k = some rule ∧ v = some s ∧ sinkValue E C.url rule (E.U.lower name) k kind u = some s) ∧
    (∀ v, (c%"style", v) ∈ as → ∃ u s, v = some s ∧ sanitizeStyle E C.cssProps (some C.url) (E.U.lower name) u = some s)
  | .comment _ => C.dropComments = false
  | .pi _ => C.dropComments = false
  | .doctype _ _ _ => C.dropDoctype = false
  | .text _ => True
  | .doc _ => True

mutual
/-- This transform is no `Sanitize`, and has none among its parts (those of a disabled stage do not count). -/
def NoSanitize : UserSpec → Prop
  | .one _ (.sanitize _) => False
  | .one _ _ => True
  | .sanitize _ => False
  | .stage enabled l => enabled = false ∨ NoSanitizes l
/-- None of these is a `Sanitize`. -/
def NoSanitizes : List UserSpec → Prop
  | [] => True
  | s :: r => NoSanitize s ∧ NoSanitizes r
end

end JH.Spec
