import Verif.Spec.Tree
/-! The lines of a tree: its texts, cut at the beginning and the end of every block and at every line break. -/
namespace JH.Spec

/-- The elements whose text stands on lines of its own. -/
def lineBlocks : List Str :=
  [c%"address", c%"article", c%"aside", c%"blockquote", c%"body", c%"dd", c%"div", c%"dl", c%"dt", c%"fieldset", c%"figcaption", c%"figure",
   c%"footer", c%"form", c%"h1", c%"h2", c%"h3", c%"h4", c%"h5", c%"h6", c%"header", c%"hr", c%"html", c%"li", c%"main", c%"nav", c%"ol", c%"p",
   c%"pre", c%"section", c%"table", c%"tbody", c%"td", c%"tfoot", c%"th", c%"thead", c%"tr", c%"ul"]

mutual
/-- The tree read from left to right: texts, and the places where a line ends (`none`). -/
def lineEvents : Node → List (Option Str)
  | .text d => [some d]
  | .comment _ => []
  | .pi _ => []
  | .doctype _ _ _ => []
  | .doc kids => lineEventsL kids
  | .elem name _ _ kids tpl content =>
    if name = c%"br" then [none]
    else
      let inner := lineEventsL kids ++ (if tpl then lineEventsL content else [])
      if name ∈ lineBlocks then none :: inner ++ [none] else inner
/-- The same for siblings. -/
def lineEventsL : List Node → List (Option Str)
  | [] => []
  | n :: ns => lineEvents n ++ lineEventsL ns
end

/-- Cut at every `none`. -/
def cutLines : List (Option Str) → List (List Str)
  | [] => [[]]
  | none :: r => [] :: cutLines r
  | some d :: r => match cutLines r with
    | l :: ls => (d :: l) :: ls
    | [] => [[d]]

/-- The lines: the texts on each, treated with `f` (which strips, or not); empty texts and empty lines do not count. -/
def linesOf (f : Str → Str) (evs : List (Option Str)) : List (List Str) :=
  ((cutLines evs).map fun l => (l.map f).filter fun d => !d.isEmpty).filter fun l => !l.isEmpty

mutual
/-- No text inside a `br` element (which no parser puts there). -/
def NoTextInBr : Node → Prop
  | .elem name _ _ kids tpl content =>
    (name = c%"br" → textsL kids ++ (if tpl then textsL content else []) = []) ∧ NoTextInBrL kids ∧ NoTextInBrL content
  | .doc kids => NoTextInBrL kids
  | _ => True
/-- The same for siblings. -/
def NoTextInBrL : List Node → Prop
  | [] => True
  | n :: ns => NoTextInBr n ∧ NoTextInBrL ns
end

mutual
/-- Neither a block nor a line break in the tree. -/
def InlineOnly : Node → Prop
  | .elem name _ _ kids _ content => name ∉ lineBlocks ∧ name ≠ c%"br" ∧ InlineOnlyL kids ∧ InlineOnlyL content
  | .doc kids => InlineOnlyL kids
  | _ => True
/-- The same for siblings. -/
def InlineOnlyL : List Node → Prop
  | [] => True
  | n :: ns => InlineOnly n ∧ InlineOnlyL ns
end

end JH.Spec
