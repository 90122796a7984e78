import Verif.Spec.Sanitize
import Verif.Spec.Url

/-! What a user sees of a parsed tree. -/
namespace JH.Spec

/-- Is this node, if it is an element, an HTML element with one of these names? -/
def TagIn (tags : List Str) : Node → Prop
  | .elem name ns _ _ _ _ => ns = some c%"html" ∧ name ∈ tags
  | _ => True

/-- Does this node, if it is an element, have only attributes that the table allows for its name or for every element? -/
def AttrsIn (allowed : List (Str × List Str)) : Node → Prop
  | .elem name _ as _ _ _ => ∀ a ∈ as, ∃ p ∈ allowed, (p.1 = c%"*" ∨ p.1 = name) ∧ a.1 ∈ p.2
  | _ => True

/-- Neither a comment nor a processing instruction. -/
def NoComment : Node → Prop
  | .comment _ => False
  | .pi _ => False
  | _ => True

/-- Not a doctype. -/
def NoDoctype : Node → Prop
  | .doctype _ _ _ => False
  | _ => True

/-- No `<` of the text is followed by this name, in upper or lower case. -/
def NoTag (U : Uni) (name html : Str) : Prop := ∀ pre w post, html = pre ++ '<' :: (w ++ post) → lowerA w ≠ name ∧ U.lower w ≠ name

/-- For a browser, the addresses in this node, if it is an element, are harmless: each `href` is relative to the page or has one of these schemes, each
`src` stays on the host of the page. -/
def LinksIn (schemes : List Str) : Node → Prop
  | .elem _ _ as _ _ _ =>
    (∀ v, (c%"href", v) ∈ as → ∃ u, v = some u ∧ (∀ sc, browserScheme u = some sc → sc ∈ schemes) ∧ networkPath u = false) ∧
    (∀ v, (c%"src", v) ∈ as → ∃ u, v = some u ∧ browserScheme u = none ∧ networkPath u = false)
  | _ => True

/-- What ends the name of a tag. -/
def endsName (c : Char) : Prop := c ∈ ['\t', '\n', '\x0c', '\r', ' ', '/', '>']

/-- The text has a start tag with this name, in any mix of upper and lower case (U+0000 in a name may be replaced by U+FFFD). -/
def TagOccurs (U : Uni) (html name : Str) : Prop :=
  ∃ pre w post, html = pre ++ '<' :: (w ++ post) ∧
    (∃ c r, w = c :: r ∧ (('a' ≤ c ∧ c ≤ 'z') ∨ ('A' ≤ c ∧ c ≤ 'Z')) ∧ ∀ x ∈ r, ¬ endsName x) ∧ (∀ x, post.head? = some x → endsName x) ∧
    ∃ v, (v = w ∨ v = lowerA w ∨ v = U.lower w) ∧ (lowerA name = lowerA v ∨ lowerA name = lowerA (v.map fun c => if c = '\x00' then '\ufffd' else c))

/-- Is the name of this node, if it is an element, one of these or the name of a start tag in the text? (The tag `image` makes an `img`.) -/
def NameFrom (U : Uni) (html : Str) (own : List Str) : Node → Prop
  | .elem name _ _ _ _ _ => name ∈ own ∨ TagOccurs U html name ∨ (name = c%"img" ∧ TagOccurs U html c%"image")
  | _ => True

end JH.Spec
