import Verif.Spec.Transforms
import Verif.Spec.TextOps
/-! What `CollapseWhitespace` is supposed to do, by recursion on the tree. -/
namespace JH.Spec

/-- The text with single spaces between its words. A space stays in front if the text starts with white space, unless `eatL`; and at the end
if the text ends with white space, unless `eatR`. A blank text becomes one space, unless `eatL` or `eatR`. -/
def tidy (eatL eatR : Bool) (t : Str) : Str :=
  if words t = [] then (if eatL || eatR then [] else [' '])
  else (if (t.head?.map ws).getD false && !eatL then [' '] else []) ++ join [' '] (words t) ++
    (if (t.getLast?.map ws).getD false && !eatR then [' '] else [])

/-- The options of the transform, and lower-casing. -/
structure WsRules where
  lower : Str → Str
  skip : List Str
  trim : Bool
  blocks : List Str

/-- Nodes that are not displayed: comments and the like, empty text, hidden elements and the elements that never show. -/
def unseen (lower : Str → Str) : Node → Bool
  | .text d => d = []
  | .doctype _ _ _ => false
  | .elem name _ as _ _ _ =>
    lower name ∈ [c%"datalist", c%"link", c%"meta", c%"script", c%"style", c%"template"] ||
    (∃ a ∈ as, a.1 = c%"hidden") ||
    (lower name = c%"dialog" && !(∃ a ∈ as, a.1 = c%"open")) ||
    (lower name = c%"input" && lower (((as.lookup c%"type").getD none).getD []) = c%"hidden")
  | _ => true

/-- The first displayed node of a list. -/
def firstSeen (lower : Str → Str) (l : List Node) : Option Node := (l.filter fun n => !unseen lower n).head?

/-- The edge of a block: nothing displayed is beside the text, or a block or a line break is. -/
def atBlock (W : WsRules) (beside : Option Node) : Bool :=
  match beside with
  | none => true
  | some (.elem name _ _ _ _ _) => W.lower name = c%"br" || W.blocks.contains (W.lower name)
  | some (.doctype _ _ _) => W.blocks.contains c%"!doctype"
  | some _ => false

/-- The text is directly inside a block element and blocks are to be trimmed. (`none`: the text is at the top, or at the top of a template.) -/
def trimsIn (W : WsRules) (parent : Option Str) : Bool :=
  W.trim && match parent with
    | some name => W.blocks.contains (W.lower name)
    | none => false

/-- The node is a text that ends with white space. -/
def endsInSpace : Option Node → Bool
  | some (.text d) => (d.getLast?.map ws).getD false
  | _ => false

/-- What becomes of a text between `before` (nearest first, already done) and `after`. -/
def tidyAt (W : WsRules) (parent : Option Str) (before after : List Node) (t : Str) : Str :=
  tidy (endsInSpace (firstSeen W.lower before) || (trimsIn W parent && atBlock W (firstSeen W.lower before)))
    (trimsIn W parent && atBlock W (firstSeen W.lower after)) t

mutual
/-- The node after white space below it was collapsed. `off`: inside an element whose white space is to be kept. -/
def tidiedIn (W : WsRules) (off : Bool) : Node → Node
  | .elem name ns as kids tpl content =>
    .elem name ns as (tidied W (off || W.skip.contains (W.lower name)) (some name) [] kids) tpl
      (if tpl then tidied W (off || W.skip.contains (W.lower name)) none [] content else content)
  | .doc kids => .doc (tidied W off none [] kids)
  | n => n
/-- The children of an element after white space was collapsed; `before` are those already done, nearest first. Texts that are left with nothing
are gone. -/
def tidied (W : WsRules) (off : Bool) (parent : Option Str) (before : List Node) : List Node → List Node
  | [] => []
  | .text t :: rest =>
    if off || t = [] then .text t :: tidied W off parent (.text t :: before) rest
    else if tidyAt W parent before rest t = [] then tidied W off parent before rest
    else .text (tidyAt W parent before rest t) :: tidied W off parent (.text (tidyAt W parent before rest t) :: before) rest
  | n :: rest => tidiedIn W off n :: tidied W off parent (tidiedIn W off n :: before) rest
end

end JH.Spec
