import Verif.Spec.Tree
import Verif.Spec.Tokenizer
import Verif.Model.Stream
import Verif.Props.StartTag

/-! Specification for C53: the events a tree stands for, and the trees concerned. -/
namespace JH.Spec

/-- The text a raw-text element's serialization contains: end-tag sequences neutralized (C08, C09). -/
def rawText (U : Uni) (name d : Str) : Str := (neutralize (asciiLower U) (U.lower name) d).1

/-- What stands between `<!DOCTYPE` and `>` in a serialized doctype. -/
def doctypeBody (name : Str) (pub sys : Option Str) : Str := ((serializeDoctype name pub sys).drop 9).dropLast

mutual
/-- The events of a tree in document order: start, the children's events, end; text nodes as they are. NUL characters in
comments, raw text and RCDATA read back as U+FFFD. -/
def events (U : Uni) (K : StreamTables) : Node → List Event
  | .text d => [.text d]
  | .comment d => [.comment ((serializeComment d).map nul)]
  | .pi d => [.comment (('?' :: d.map (fun c => if c = '>' then ' ' else c) ++ ['?']).map nul)]
  | .doctype name pub sys => [.doctype (K.doctype (doctypeBody name pub sys)).1 (K.doctype (doctypeBody name pub sys)).2.1
      (K.doctype (doctypeBody name pub sys)).2.2]
  | .doc kids => eventsL U K kids
  | .elem name ns attrs kids tpl content =>
    .start (U.lower name) (firstWins (attrs.map fun a =>
        (nulFix (U.lower (dropNL a.1)), readValue U { htmlNs := isHtmlNs ns } name a.1 a.2))) ::
      (if voidElements.contains name then []
       else
        (if rawtextTags.contains (U.lower name) then [.text ((rawText U name (textsL kids).flatten).map nul)]
         else if rcdataTags.contains (U.lower name) then [.text ((textsL kids).flatten.map nul)]
         else if name = c%"template" ∧ tpl = true ∧ (ns = none ∨ ns = some c%"html") then eventsL U K content
         else eventsL U K kids) ++ [.end (U.lower name)])
/-- The events of a list of siblings. -/
def eventsL (U : Uni) (K : StreamTables) : List Node → List Event
  | [] => []
  | n :: ns => events U K n ++ eventsL U K ns
end

/-- Adjacent texts are one text event, empty texts are none, and newlines are normalized; `p` is the text before. -/
def mergeText : Str → List Event → List Event
  | p, [] => if p.isEmpty then [] else [.text (newlines p)]
  | p, .text t :: es => mergeText (p ++ t) es
  | p, e :: es => (if p.isEmpty then [] else [.text (newlines p)]) ++ e :: mergeText [] es

mutual
/-- The trees whose markup the event reader can read back: HTML content as it can be written in HTML syntax. Excluded are
the elements that switch the reader to another mode (`svg`, `math`, `plaintext`, `noscript`), markup inside raw text and
RCDATA elements, raw text split over several text nodes, and scripts containing `<!--`. -/
def Readable (U : Uni) : Node → Prop
  | .text _ => True
  | .comment _ => True
  | .pi _ => True
  | .doctype _ _ _ => True
  | .doc kids => ReadableL U kids
  | .elem name ns _ kids tpl content =>
    dropNL name = name ∧ U.lower name ∉ [c%"svg", c%"math", c%"plaintext", c%"noscript"] ∧
    if rawtextTags.contains (U.lower name) then
      name.all isAscii = true ∧ ns = some c%"html" ∧ (kids = [] ∨ ∃ d, kids = [.text d]) ∧
        (U.lower name = c%"script" → ∀ a b, rawText U name (textsL kids).flatten ≠ a ++ c%"<!--" ++ b)
    else if rcdataTags.contains (U.lower name) then
      name.all isAscii = true ∧ ∀ k ∈ kids, ∃ d, k = .text d
    else if voidElements.contains name then True
    else if name = c%"template" ∧ tpl = true ∧ (ns = none ∨ ns = some c%"html") then ReadableL U content
    else ReadableL U kids
/-- A list of siblings. -/
def ReadableL (U : Uni) : List Node → Prop
  | [] => True
  | n :: ns => Readable U n ∧ ReadableL U ns
end

end JH.Spec
