import Verif.Model.Serialize

/-! Recursive specifications of document-order traversals (C12, C57). They reuse only the per-node output functions of the
serializer (start tag, comment, text, ...), which have their own properties. -/
namespace JH.Spec

mutual
/-- The markup of one node in document order: an element is its start tag, the markup of its children (of its template
content, for HTML templates) from left to right, and its end tag; a void element is only its start tag. `none` when some
element or attribute name is refused. -/
def markup (U : Uni) (ctx : Option Str) : Node → Option Str
  | .text d => some (serializeTextFor U ctx d)
  | .comment d => some (c%"<!--" ++ serializeComment d ++ c%"-->")
  | .pi d => some (c%"<?" ++ serializePi d ++ c%"?>")
  | .doctype name pub sys => some (serializeDoctype name pub sys)
  | .doc kids => markupL U none kids
  | .elem name ns attrs kids tpl content =>
    match serializeStartTag U { htmlNs := isHtmlNs ns } name attrs with
    | none => none
    | some tag =>
      if voidElements.contains name then some tag
      else if name = c%"template" ∧ tpl = true ∧ (ns = none ∨ ns = some c%"html") then
        (markupL U none content).map fun inner => tag ++ inner ++ (c%"</" ++ name ++ c%">")
      else (markupL U (if ns = some c%"html" then some name else none) kids).map fun inner =>
        tag ++ inner ++ (c%"</" ++ name ++ c%">")
/-- The markup of a list of siblings. -/
def markupL (U : Uni) (ctx : Option Str) : List Node → Option Str
  | [] => some []
  | n :: ns =>
    match markup U ctx n, markupL U ctx ns with
    | some a, some b => some (a ++ b)
    | _, _ => none
end

mutual
/-- All text of a subtree in document order (children before template content). -/
def texts : Node → List Str
  | .text d => [d]
  | .comment _ => []
  | .pi _ => []
  | .doctype _ _ _ => []
  | .doc kids => textsL kids
  | .elem _ _ _ kids tpl content => textsL kids ++ (if tpl then textsL content else [])
/-- All text of a list of siblings. -/
def textsL : List Node → List Str
  | [] => []
  | n :: ns => texts n ++ textsL ns
end

end JH.Spec
