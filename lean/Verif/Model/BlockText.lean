import Verif.Model.Serialize

/-! `to_text(separator_blocks_only=True)` (src/justhtml/dom/__init__.py). -/
namespace JH

/-- dom/__init__.py:40-82 `_TEXT_BLOCK_ELEMENTS`. -/
def textBlockElements : List Str :=
  [c%"address", c%"article", c%"aside", c%"blockquote", c%"body", c%"dd", c%"div", c%"dl", c%"dt", c%"fieldset", c%"figcaption", c%"figure",
   c%"footer", c%"form", c%"h1", c%"h2", c%"h3", c%"h4", c%"h5", c%"h6", c%"header", c%"hr", c%"html", c%"li", c%"main", c%"nav", c%"ol", c%"p",
   c%"pre", c%"section", c%"table", c%"tbody", c%"td", c%"tfoot", c%"th", c%"thead", c%"tr", c%"ul"]

/-- dom/__init__.py:84 `_TEXT_BREAK_ELEMENTS`. -/
def textBreakElements : List Str := [c%"br"]

/-- `chunks` (a list that is never empty): the lists before the last, and the last. -/
structure Chunks where
  before : List (List Str) := []
  last : List Str := []

/-- dom/__init__.py:87-89 `_to_text_break`. -/
def Chunks.brk (c : Chunks) : Chunks := if c.last.isEmpty then c else ⟨c.before ++ [c.last], []⟩

/-- dom/__init__.py:109 `chunks[-1].append(data)`. -/
def Chunks.add (c : Chunks) (d : Str) : Chunks := ⟨c.before, c.last ++ [d]⟩

/-- dom/__init__.py:92-125 `_to_text_collect_block_chunks`: the stack loop; a node on the stack is entered (`false`, state 0) or left (`true`, state 1).
`strip` is `str.strip` when `strip=True`, the identity otherwise. Elements are known by their names as they are written. -/
def blocksF (strip : Str → Str) : Nat → List (Node × Bool) → Chunks → Scan Chunks
  | 0, _, _ => .unclosed
  | _ + 1, [], c => .ok c
  | n + 1, (_, true) :: st, c => blocksF strip n st c.brk
  | n + 1, (nd, false) :: st, c =>
    match nd with
    | .text d => blocksF strip n st (if d.isEmpty || (strip d).isEmpty then c else c.add (strip d))
    | .comment _ => blocksF strip n st c
    | .pi _ => blocksF strip n st c
    | .doctype _ _ _ => blocksF strip n st c
    | .doc kids => blocksF strip n (kids.map (·, false) ++ st) c
    | .elem name ns as kids tpl content =>
      if textBreakElements.contains name then blocksF strip n st c.brk
      else
        let block := textBlockElements.contains name
        -- the node itself is pushed first, then `template_content`, then the children
        blocksF strip n (kids.map (·, false) ++ ((if tpl then [(.doc content, false)] else []) ++
          ((if block then [(.elem name ns as kids tpl content, true)] else []) ++ st))) (if block then c.brk else c)

/-- dom/__init__.py:385-399: `to_text(separator, strip, separator_blocks_only=True)`; `intra` is `intra_sep`. -/
def toTextBlocks (strip : Str → Str) (intra sep : Str) (n : Node) : Scan Str :=
  match blocksF strip (2 * n.size + 1) [(n, false)] {} with
  | .ok c => .ok (join sep (((c.before ++ [c.last]).filter fun l => !l.isEmpty).map (join intra)))
  | .unclosed => .unclosed
  | .error => .error

/-- dom/__init__.py:363-399: `node.to_text(separator, strip, separator_blocks_only=…)`. -/
def toTextCall (U : Uni) (sep : Str) (strip blocksOnly : Bool) (n : Node) : Scan Str :=
  let f : Str → Str := if strip then stripP U.isSpace else id
  if blocksOnly then toTextBlocks f (if strip then c%" " else []) sep n else toText f sep n

end JH
