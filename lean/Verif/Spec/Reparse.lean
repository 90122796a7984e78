import Verif.Spec.Tree
import Verif.Spec.Engine
import Verif.Spec.Construct
/-! Parsing again what was written (what a browser does with sanitized markup). -/
namespace JH.Spec

/-- A tag name without surprises: none of `<`, line feed and U+0000. -/
def BareName (name : Str) : Prop := ∀ c ∈ name, c ≠ '<' ∧ c ≠ '\n' ∧ c ≠ '\x00'

/-- The elements whose text is written as it is. -/
def verbatim : List Str := [c%"iframe", c%"noembed", c%"noframes", c%"plaintext", c%"script", c%"style", c%"xmp"]

/-- A node whose markup has a `<` only at the beginning of its tags: no comment or processing instruction, no `<` in the names of attributes or in a doctype's
name, and not one of the elements whose text is written as it is (`script`, `style`, ...). -/
def PlainNode (U : Uni) : Node → Prop
  | .elem name ns as _ _ _ => BareName name ∧ (∀ p ∈ as, '<' ∉ p.1) ∧ (ns = some c%"html" → U.lower name ∉ verbatim)
  | .comment _ => False
  | .pi _ => False
  | .doctype name _ _ => '<' ∉ name
  | .text _ => True
  | .doc _ => True

/-- The tree has an element with this name. -/
def HasTag (l : List Node) (name : Str) : Prop := ∃ ns as kids tpl content, Reach (.elem name ns as kids tpl content) l

/-- If this node is an element, it has one of these names or, up to case, the name of an element of the trees (the tag `image` makes an `img`). -/
def NamedAfter (U : Uni) (own : List Str) (l : List Node) : Node → Prop
  | .elem name _ _ _ _ _ => name ∈ own ∨ ∃ w, HasTag l w ∧ (U.lower name = U.lower w ∨ (name = c%"img" ∧ U.lower w = c%"image"))
  | _ => True

/-- A policy whose markup has no surprises: the names it allows are plain, none of them is an element whose text is written as it is (`script`, `style`,
...), and comments are dropped. (The names of doctypes are another matter: see the theorems.) -/
structure PlainPolicy (C : SanCfg) : Prop where
  tags : ∀ t ∈ C.allowedTags, BareName t ∧ t ∉ verbatim
  attrs : ∀ p ∈ C.allowedAttrs, ∀ k ∈ p.2, '<' ∉ k
  comments : C.dropComments = true

/-- If this node is an element, it has one of these names or one of those that are allowed (it may be an `img` if `image` is allowed). -/
def AllowedAgain (U : Uni) (own tags : List Str) : Node → Prop
  | .elem name _ _ _ _ _ => name ∈ own ∨ U.lower name ∈ tags ∨ (name = c%"img" ∧ c%"image" ∈ tags)
  | _ => True

/-- The names of the attributes are plain too. -/
def PlainKeys : Node → Prop
  | .elem _ _ as _ _ _ => ∀ p ∈ as, BareName p.1
  | _ => True

/-- A text as a parser reads it: every end of a line is a line feed, and U+FFFD stands for U+0000. -/
def asRead : Str → Str
  | [] => []
  | '\r' :: '\n' :: r => '\n' :: asRead r
  | c :: r => (if c = '\r' then '\n' else if c = '\x00' then '\ufffd' else c) :: asRead r

/-- If this node is an element, each of its attributes is one of an element with the same name in the trees: the same name up to case, and the same value as a
parser reads it. (The value of an attribute like `checked="checked"` may be left out.) -/
def AttrsAfter (U : Uni) (l : List Node) : Node → Prop
  | .elem name _ as _ _ _ => ∀ kv ∈ as, ∃ w ns as' kids tpl content, Reach (.elem w ns as' kids tpl content) l ∧
      (name = w ∨ name = lowerA w ∨ name = U.lower w ∨ (name = c%"img" ∧ U.lower w = c%"image")) ∧
      ∃ p ∈ as', (kv.1 = lowerA p.1 ∨ kv.1 = U.lower p.1) ∧
        (kv.2 = some (asRead (p.2.getD [])) ∨ (kv.2 = some [] ∧ ∃ v, p.2 = some v ∧ U.lower v = U.lower p.1))
  | _ => True

/-- The attributes that the policy allows have plain names in lower case, and it does not allow `svg` and `math`. -/
structure PlainAttrs (C : SanCfg) : Prop where
  keys : ∀ p ∈ C.allowedAttrs, ∀ k ∈ p.2, BareName k ∧ k.all isAscii = true ∧ lowerA k = k
  foreign : c%"svg" ∉ C.allowedTags ∧ c%"math" ∉ C.allowedTags

/-- If this node is an element, each of its attributes is allowed for its name (an `img` may have those of an `image`). -/
def AttrsAgain (U : Uni) (C : SanCfg) : Node → Prop
  | .elem name _ as _ _ _ => ∀ kv ∈ as, AttrAllowed U.lower C.allowedAttrs C.forceRel name kv.1 ∨
      (name = c%"img" ∧ AttrAllowed U.lower C.allowedAttrs C.forceRel c%"image" kv.1)
  | _ => True

end JH.Spec
