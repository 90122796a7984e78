import Verif.Model.TextOps
import Verif.Model.Tree
/-! Specification for C111: the text of a tree as it flows, for trees of paragraphs, headings, sections, lists, emphasis, links and plain inline elements. -/
namespace JH.Spec

/-- The elements whose text Markdown writes in a way of its own (or leaves out). -/
def mdOwn : List Str := [c%"head", c%"title", c%"img", c%"table", c%"script", c%"style", c%"textarea",
  c%"pre", c%"code", c%"blockquote"]

/-- The other elements that stand on lines of their own. -/
def mdSection : List Str := [c%"p", c%"div", c%"section", c%"article", c%"header", c%"footer", c%"main", c%"nav", c%"aside", c%"li"]

/-- The elements that stand on lines of their own or begin a line. -/
def mdLineElems : List Str := mdSection ++ [c%"h1", c%"h2", c%"h3", c%"h4", c%"h5", c%"h6", c%"hr", c%"ul", c%"ol"]

/-- A character of an address that is written as it is, and means itself. -/
def plainUrl (c : Char) : Bool := 33 ≤ c.toNat && c.toNat ≤ 126 && c ∉ c%"()<>\\&"

/-- The address of a link. -/
def linkHref (attrs : List (Str × Option Str)) : Str :=
  match attrs.find? (fun p => p.1 = c%"href") with
  | some (_, some v) => v
  | _ => []

/-- What is written behind the text of a link. -/
def linkTail (attrs : List (Str × Option Str)) : Str :=
  if linkHref attrs = [] then [']'] else c%"](" ++ linkHref attrs ++ [')']

/-- The mark of emphasis. -/
def emMark : List (Str × Str) := [(c%"em", c%"*"), (c%"i", c%"*"), (c%"strong", c%"**"), (c%"b", c%"**")]

mutual
/-- Nothing below the node begins a line. -/
def Inline (low : Str → Str) : Node → Prop
  | .doc kids => InlineL low kids
  | .elem name _ _ kids _ _ => name ≠ c%"br" ∧ low name ∉ mdLineElems ∧ InlineL low kids
  | _ => True
/-- `Inline` for each node of a list. -/
def InlineL (low : Str → Str) : List Node → Prop
  | [] => True
  | n :: ns => Inline low n ∧ InlineL low ns
end

mutual
/-- Every element below the node is one that flows, none of them with a separate content, emphasis and links stay in their line, and the addresses
of links are plain. -/
def Flows (low : Str → Str) : Node → Prop
  | .doc kids => FlowsL low kids
  | .elem name _ attrs kids tpl _ => low name ∉ mdOwn ∧ tpl = false ∧ (low name ∈ emMark.map (·.1) ∨ low name = c%"a" → InlineL low kids) ∧
      (low name = c%"a" → (linkHref attrs).all plainUrl = true) ∧ FlowsL low kids
  | _ => True
/-- `Flows` for each node of a list. -/
def FlowsL (low : Str → Str) : List Node → Prop
  | [] => True
  | n :: ns => Flows low n ∧ FlowsL low ns
end

/-- A text with marks around it, inside its white space; a text without words has no marks. -/
def around (m s : Str) : Str :=
  let core := stripP isHtmlSpace s
  if core = [] then s else s.takeWhile isHtmlSpace ++ m ++ core ++ m ++ (s.reverse.takeWhile isHtmlSpace).reverse

/-- The text of a link with its bracket and what stands behind it, inside the white space of the text. -/
def aroundLink (tail s : Str) : Str :=
  let core := stripP isHtmlSpace s
  if core = [] then s ++ ['['] ++ tail ++ s else s.takeWhile isHtmlSpace ++ ['['] ++ core ++ tail ++ (s.reverse.takeWhile isHtmlSpace).reverse

/-- The mark of a heading. -/
def headingMark : List (Str × Str) :=
  [(c%"h1", c%"# "), (c%"h2", c%"## "), (c%"h3", c%"### "), (c%"h4", c%"#### "), (c%"h5", c%"##### "), (c%"h6", c%"###### ")]

mutual
/-- The text in document order, with a line break for a `br` (which has no content) and around each section, heading, rule, list and item, and the marks of
headings, rules, items, emphasis and links. -/
def mdFlow (low : Str → Str) : Node → Str
  | .text d => d
  | .doc kids => mdFlowL low kids
  | .elem name _ attrs kids _ _ =>
    if name = c%"br" then ['\n']
    else match headingMark.find? (fun p => p.1 = low name) with
    | some p => ['\n'] ++ p.2 ++ mdFlowL low kids ++ ['\n']
    | none =>
      if low name = c%"hr" then c%"\n---\n"
      else if low name = c%"ul" then ['\n'] ++ mdFlowItems low false 1 kids ++ ['\n']
      else if low name = c%"ol" then ['\n'] ++ mdFlowItems low true 1 kids ++ ['\n']
      else if low name ∈ mdSection then ['\n'] ++ mdFlowL low kids ++ ['\n']
      else match emMark.find? (fun p => p.1 = low name) with
      | some p => around p.2 (mdFlowL low kids)
      | none => if low name = c%"a" then aroundLink (linkTail attrs) (mdFlowL low kids) else mdFlowL low kids
  | _ => []
/-- `mdFlow` of the nodes of a list, one after the other. -/
def mdFlowL (low : Str → Str) : List Node → Str
  | [] => []
  | n :: ns => mdFlow low n ++ mdFlowL low ns
/-- The items of a list, numbered from `i`; only `li` elements are items, and nothing else in a list is written. -/
def mdFlowItems (low : Str → Str) (ordered : Bool) (i : Nat) : List Node → Str
  | [] => []
  | .elem name _ _ kids _ _ :: ns =>
    if low name = c%"li" then ['\n'] ++ (if ordered then Nat.toDigits 10 i ++ c%". " else c%"- ") ++ mdFlowL low kids ++ mdFlowItems low ordered (i + 1) ns
    else mdFlowItems low ordered i ns
  | _ :: ns => mdFlowItems low ordered i ns
end

end JH.Spec
