import Verif.Model.Serialize
import Verif.Model.TextOps

/-! Model of the pretty printer `_node_to_html` (serializer/html.py:849-1397), the default of `to_html`. The explicit task and
result stacks of the code are recursion here: a `visit` task leaves the text of the node on the result stack, and a `collect_*`
task puts the texts of its children together. The memo of `_BlockMemo` is left out (it only remembers answers). -/
namespace JH

/-- core/constants.py:193-201 `WHITESPACE_PRESERVING_ELEMENTS`. -/
def wsPreserving : List Str := [c%"code", c%"pre", c%"script", c%"style", c%"textarea"]

/-- core/constants.py:273-357 `SPECIAL_ELEMENTS`. -/
def specialElements : List Str :=
  [c%"address", c%"applet", c%"area", c%"article", c%"aside", c%"base", c%"basefont", c%"bgsound", c%"blockquote", c%"body", c%"br",
   c%"button", c%"caption", c%"center", c%"col", c%"colgroup", c%"dd", c%"details", c%"dialog", c%"dir", c%"div", c%"dl", c%"dt",
   c%"embed", c%"fieldset", c%"figcaption", c%"figure", c%"footer", c%"form", c%"frame", c%"frameset", c%"h1", c%"h2", c%"h3", c%"h4",
   c%"h5", c%"h6", c%"head", c%"header", c%"hgroup", c%"hr", c%"html", c%"iframe", c%"img", c%"input", c%"keygen", c%"li", c%"link",
   c%"listing", c%"main", c%"marquee", c%"menu", c%"meta", c%"nav", c%"noembed", c%"noframes", c%"noscript", c%"object", c%"ol", c%"p",
   c%"param", c%"plaintext", c%"pre", c%"script", c%"search", c%"section", c%"select", c%"source", c%"style", c%"summary", c%"table",
   c%"tbody", c%"td", c%"template", c%"textarea", c%"tfoot", c%"th", c%"thead", c%"title", c%"tr", c%"track", c%"ul", c%"wbr"]

/-- serializer/html.py:664-719 `_LAYOUT_BLOCK_ELEMENTS`. -/
def layoutBlocks : List Str :=
  [c%"address", c%"article", c%"aside", c%"blockquote", c%"body", c%"caption", c%"center", c%"dd", c%"details", c%"dialog", c%"dir",
   c%"div", c%"dl", c%"dt", c%"fieldset", c%"figcaption", c%"figure", c%"footer", c%"form", c%"h1", c%"h2", c%"h3", c%"h4", c%"h5",
   c%"h6", c%"header", c%"hgroup", c%"hr", c%"html", c%"iframe", c%"li", c%"listing", c%"main", c%"marquee", c%"menu", c%"nav",
   c%"noframes", c%"noscript", c%"ol", c%"p", c%"plaintext", c%"pre", c%"search", c%"section", c%"summary", c%"table", c%"tbody",
   c%"td", c%"tfoot", c%"th", c%"thead", c%"tr", c%"ul"]

/-- serializer/html.py:498-550, the loop of `_normalize_formatting_whitespace`; `inWs` and `saw` are `in_ws` and
`saw_formatting_ws`. -/
def normLoop : Bool → Bool → Str → Str
  | _, _, [] => []
  | inWs, saw, c :: t =>
    if c = ' ' then
      (if inWs then (if saw then normLoop inWs saw t else ' ' :: normLoop inWs saw t) else ' ' :: normLoop true false t)
    else if isFormattingSpace c then (if inWs then normLoop inWs true t else ' ' :: normLoop true true t)
    else c :: normLoop false false t

/-- serializer/html.py:498-550 `_normalize_formatting_whitespace`. -/
def normFormatting (text : Str) : Str :=
  if !text.any isFormattingSpace then text
  else
    let n := normLoop false false text
    let n := if text.head?.any isFormattingSpace && n.head? = some ' ' then n.drop 1 else n
    if text.getLast?.any isFormattingSpace && n.getLast? = some ' ' then n.dropLast else n

/-- `(data or "").strip() == ""`. -/
def blankStr (U : Uni) (d : Str) : Bool := (stripP U.isSpace d).isEmpty

/-- `child.name == "#text"`. -/
def isTextN : Node → Bool
  | .text _ => true
  | _ => false

/-- `child.name == "#comment"`. -/
def isCommentN : Node → Bool
  | .comment _ => true
  | _ => false

/-- serializer/html.py:553-554 `_is_whitespace_text_node`. -/
def blankText (U : Uni) : Node → Bool
  | .text d => blankStr U d
  | _ => false

/-- `child.name == "#text" and (child.data or "").strip()`. -/
def inkText (U : Uni) : Node → Bool
  | .text d => !blankStr U d
  | _ => false

mutual
/-- serializer/html.py:650-662 `_is_blocky_element`, 724-736 `_is_layout_blocky_element`: the element or a descendant is a block. -/
def blocky (blocks : List Str) : Node → Bool
  | .elem name _ _ kids _ _ => blocks.contains name || hasBlock blocks kids
  | .doc kids => hasBlock blocks kids
  | .text _ => false
  | .comment _ => false
  | .pi _ => false
  | .doctype _ _ _ => false
/-- serializer/html.py:581-647 `_has_block_descendant` for a list of children. -/
def hasBlock (blocks : List Str) : List Node → Bool
  | [] => false
  | n :: ns => blocky blocks n || hasBlock blocks ns
end

mutual
/-- serializer/html.py:739-761 `_pretty_renders_nonempty` (with `in_pre` false, as it is always called). -/
def renders (U : Uni) : Node → Bool
  | .text d => !blankStr U d
  | .doc kids => rendersL U kids
  | .elem _ _ _ _ _ _ => true
  | .comment _ => true
  | .pi _ => true
  | .doctype _ _ _ => true
/-- Some node of the list is rendered. -/
def rendersL (U : Uni) : List Node → Bool
  | [] => false
  | n :: ns => renders U n || rendersL U ns
end

/-- serializer/html.py:764-771 `_is_formatting_whitespace_text`. -/
def formattingText (d : Str) : Bool := !d.isEmpty && (d.any isFormattingSpace || d.length > 2)

/-- serializer/html.py:984: white space that separates lines. -/
def sepText (U : Uni) : Node → Bool
  | .text d => blankStr U d && formattingText d
  | _ => false

/-- serializer/html.py:810-812 `_pretty_indent` (a negative `indent_size` is one of 0). -/
def prettyIndent (depth size : Nat) : Str := List.replicate (min depth 64 * size) ' '

/-- A child with its texts as a `visit` task leaves them: one level deeper, without indentation, and inside preformatted text.
`none` is the ValueError of a refused name. -/
structure Kid where
  node : Node
  deep : Option Str
  flat : Option Str
  pre : Option Str

/-- Parts of a line template: `("lit", s)`, or `("child", idx)` with the text of that child. -/
inductive PPart where
  | lit (s : Str)
  | child (s : Option Str)

/-- Line templates: prefix, parts, `strip_spaces`. -/
structure PLine where
  pre : Str
  parts : List PPart
  strip : Bool

/-- serializer/html.py:774-804 `_should_pretty_indent_children`: no two neighbours of the element children are inline. -/
def noInlinePair : List Node → Bool
  | a :: b :: r => (blocky specialElements a || blocky specialElements b) && noInlinePair (b :: r)
  | _ => true

/-- serializer/html.py:774-804 `_should_pretty_indent_children`. -/
def shouldIndent (U : Uni) (children : List Node) : Bool :=
  if children.any fun c => isCommentN c || inkText U c then false
  else
    match children.filter fun c => !isTextN c && !isCommentN c with
    | [] => true
    | [c] => blocky specialElements c
    | cs => noInlinePair cs

/-- serializer/html.py:1382-1390, 1342-1347: the parts of a line. -/
def catParts : List PPart → Option Str
  | [] => some []
  | .lit s :: ps => (catParts ps).map fun b => s ++ b
  | .child none :: _ => none
  | .child (some s) :: ps => (catParts ps).map fun b => s ++ b

/-- serializer/html.py:1382-1394: the lines of `collect_wrap_lines`. -/
def renderLines (skipEmpty : Bool) : List PLine → Option (List Str)
  | [] => some []
  | l :: ls =>
    match catParts l.parts, renderLines skipEmpty ls with
    | some s0, some r =>
      let s := if l.strip then stripP (· = ' ') s0 else s0
      some (if !s.isEmpty || !skipEmpty then (l.pre ++ s) :: r else r)
    | _, _ => none

/-- serializer/html.py:1395. -/
def wrapLines (pfx openTag closeTag : Str) (lines : List Str) : Str :=
  join ['\n'] ((pfx ++ openTag) :: (lines ++ [pfx ++ closeTag]))

/-- serializer/html.py:979-990: the items between separators; `none` is `_FORMAT_SEP`. -/
def fmtItems (U : Uni) : Bool → List Kid → List (Option Kid)
  | _, [] => []
  | lastSep, k :: ks =>
    if sepText U k.node then (if lastSep then fmtItems U true ks else none :: fmtItems U true ks)
    else some k :: fmtItems U false ks

/-- serializer/html.py:997-1005: the runs between separators. -/
def fmtRuns : List Kid → List (Option Kid) → List (List Kid)
  | cur, [] => [cur]
  | cur, none :: r => cur :: fmtRuns [] r
  | cur, some k :: r => fmtRuns (cur ++ [k]) r

/-- serializer/html.py:979-1006. -/
def runsOf (U : Uni) (kids : List Kid) : List (List Kid) :=
  let items := fmtItems U false kids
  let items := items.dropWhile Option.isNone
  let items := (items.reverse.dropWhile Option.isNone).reverse
  (fmtRuns [] items).filter fun r => !r.isEmpty

/-- serializer/html.py:1028-1041: one child of a run. -/
def runPart (U : Uni) (k : Kid) : PPart :=
  match k.node with
  | .text d => .lit (if blankStr U d then d else escapeText (normFormatting d))
  | _ => .child k.flat

/-- serializer/html.py:1021-1045: the line of a run. -/
def runLine (U : Uni) (indent size : Nat) (run : List Kid) : PLine :=
  let inl : PLine := ⟨prettyIndent (indent + 1) size, run.map (runPart U), false⟩
  match run with
  | [k] => if isTextN k.node then inl else ⟨[], [.child k.deep], false⟩
  | _ => inl

/-- serializer/html.py:1112, 1249. -/
def breaksLine (d : Str) : Bool := d.contains '\n' || d.contains '\r' || d.contains '\t' || d.length > 2

/-- serializer/html.py:1094-1101 `flush_inline_parts`. -/
def flushParts (pre : Str) (acc : List PPart) : List PLine := if acc.isEmpty then [] else [⟨pre, acc, true⟩]

/-- serializer/html.py:1103-1132: text and inline children share a line, blocks have their own. `first` says that no child has been
seen; `acc` is `inline_parts`. -/
def mixedLines (U : Uni) (pre : Str) : Bool → List PPart → List Kid → List PLine
  | _, acc, [] => flushParts pre acc
  | first, acc, k :: ks =>
    match k.node with
    | .text d =>
      if blankStr U d then
        (if first || ks.isEmpty then mixedLines U pre false acc ks
         else if breaksLine d then flushParts pre acc ++ mixedLines U pre false [] ks
         else mixedLines U pre false (acc ++ [.lit d]) ks)
      else mixedLines U pre false (acc ++ [.lit (escapeText (normFormatting d))]) ks
    | n =>
      if blocky layoutBlocks n then flushParts pre acc ++ ⟨[], [.child k.deep], false⟩ :: mixedLines U pre false [] ks
      else mixedLines U pre false (acc ++ [.child k.flat]) ks

/-- serializer/html.py:1155-1175: is there white space between two elements? -/
def wsBetween (U : Uni) : Bool → Bool → List Node → Bool
  | _, _, [] => false
  | prev, saw, .text d :: ns => wsBetween U prev (saw || (prev && blankStr U d)) ns
  | prev, saw, _ :: ns => (prev && saw) || wsBetween U true false ns

/-- serializer/html.py:1193-1212: every element and every text on its own line. -/
def elementLines (U : Uni) (pre : Str) : List Kid → List PLine
  | [] => []
  | k :: ks =>
    match k.node with
    | .text d =>
      (if (collapsePretty U d).isEmpty then [] else [⟨pre, [.lit (escapeText (collapsePretty U d))], false⟩]) ++ elementLines U pre ks
    | n => (if renders U n then [⟨[], [.child k.deep], false⟩] else []) ++ elementLines U pre ks

/-- serializer/html.py:1241-1258: everything on one line. -/
def compactParts (U : Uni) : Bool → List Kid → List PPart
  | _, [] => []
  | first, k :: ks =>
    match k.node with
    | .text d =>
      if blankStr U d && (first || ks.isEmpty) then compactParts U false ks
      else if blankStr U d && breaksLine d then .lit [' '] :: compactParts U false ks
      else .lit (escapeText (normFormatting d)) :: compactParts U false ks
    | _ => .child k.flat :: compactParts U false ks

/-- serializer/html.py:942-964: the lines of a special element without text, when it has something to show. -/
def specialLines (U : Uni) (special : Bool) (kids : List Kid) : Option (List PLine) :=
  let visible := kids.filter fun k => !blankText U k.node && renders U k.node
  if special && !(kids.any fun k => inkText U k.node) && !visible.isEmpty then
    some (visible.map fun k => ⟨[], [.child k.deep], false⟩)
  else none

/-- serializer/html.py:966-1061: the lines of a special element whose children are separated by formatting white space. -/
def separatedLines (U : Uni) (indent size : Nat) (special : Bool) (kids : List Kid) : Option (List PLine) :=
  let runs := runsOf U kids
  let lines := runs.map (runLine U indent size)
  if special && !(kids.any fun k => isCommentN k.node) && (kids.tail.dropLast.any fun k => sepText U k.node) &&
      (runs.all fun run => !((run.any fun k => !isTextN k.node && !isCommentN k.node && blocky specialElements k.node) && run.length ≠ 1)) &&
      !lines.isEmpty then some lines
  else none

/-- serializer/html.py:1064-1148: the lines of a special element with text and block children. -/
def blockLines (U : Uni) (indent size : Nat) (special : Bool) (kids : List Kid) : Option (List PLine) :=
  let lines := mixedLines U (prettyIndent (indent + 1) size) true [] kids
  if special && !(kids.any fun k => isCommentN k.node) &&
      (kids.any fun k => !isTextN k.node && !isCommentN k.node && blocky layoutBlocks k.node) && (kids.any fun k => inkText U k.node) &&
      !lines.isEmpty then some lines
  else none

/-- serializer/html.py:1150-1228: the lines of a special element with white space between elements and no text before the last
element. -/
def spacedLines (U : Uni) (indent size : Nat) (special : Bool) (kids : List Kid) : Option (List PLine) :=
  let lines := elementLines U (prettyIndent (indent + 1) size) kids
  if special && !(kids.any fun k => isCommentN k.node) && (kids.any fun k => !isTextN k.node) && wsBetween U false false (kids.map Kid.node) &&
      !((kids.reverse.dropWhile fun k => isTextN k.node).any fun k => inkText U k.node) && !lines.isEmpty then some lines
  else none

/-- serializer/html.py:942-1274: the layout of an element that is not preformatted and has other children than text. -/
def layout (U : Uni) (size indent : Nat) (special : Bool) (pfx openTag closeTag : Str) (kids : List Kid) : Option Str :=
  match specialLines U special kids with
  | some ls => (renderLines true ls).map (wrapLines pfx openTag closeTag)
  | none =>
    match separatedLines U indent size special kids with
    | some ls => (renderLines true ls).map (wrapLines pfx openTag closeTag)
    | none =>
      if !shouldIndent U (kids.map Kid.node) then
        match blockLines U indent size special kids with
        | some ls => (renderLines true ls).map (wrapLines pfx openTag closeTag)
        | none =>
          match spacedLines U indent size special kids with
          | some ls => (renderLines true ls).map (wrapLines pfx openTag closeTag)
          | none => (catParts (compactParts U true kids)).map fun s => pfx ++ (openTag ++ (s ++ closeTag))
      else
        (renderLines false ((kids.filter fun k => !blankText U k.node).map fun k => ⟨[], [.child k.deep], false⟩)).map
          (wrapLines pfx openTag closeTag)

/-- Texts of text nodes. -/
def textData : Node → Str
  | .text d => d
  | _ => []

/-- serializer/html.py:901-1274: an element. `kids` are the children (of the template content, for an HTML template); `ctx` is
what the element tells its text children. -/
def prettyElem (U : Uni) (size indent : Nat) (inPre : Bool) (name : Str) (ctx : Option Str) (openTag : Str) (kids : List Kid) : Option Str :=
  let pfx := if inPre then [] else prettyIndent indent size
  let closeTag := c%"</" ++ name ++ c%">"
  let contentPre := inPre || wsPreserving.contains name
  if kids.isEmpty then some (pfx ++ (openTag ++ closeTag))
  else if !contentPre && kids.all fun k => isTextN k.node then
    some (pfx ++ (openTag ++ (serializeTextFor U ctx (collapsePretty U (kids.flatMap fun k => textData k.node)) ++ closeTag)))
  else if contentPre then (catParts (kids.map fun k => .child k.pre)).map fun s => pfx ++ (openTag ++ (s ++ closeTag))
  else layout U size indent (specialElements.contains name) pfx openTag closeTag kids

/-- `_join_html_fragments` of the children of a document (`filterEmpty` false) or fragment. -/
def joinKids (sep : Str) (filterEmpty : Bool) : List (Option Str) → Option Str
  | rs => if rs.all Option.isSome then
      some (join sep ((rs.filterMap id).filter fun s => !filterEmpty || !s.isEmpty)) else none

mutual
/-- serializer/html.py:849-1397 `_node_to_html`: the text a `visit` task leaves. A `doc` node below the root is a
`DocumentFragment`. -/
def pretty (U : Uni) (size : Nat) (ctx : Option Str) (indent : Nat) (inPre : Bool) : Node → Option Str
  | .text d =>
    if inPre then some (serializeTextFor U ctx d)
    else if blankStr U d then some []
    else some (prettyIndent indent size ++ serializeTextFor U ctx (stripP U.isSpace d))
  | .comment d => some ((if inPre then [] else prettyIndent indent size) ++ (c%"<!--" ++ serializeComment d ++ c%"-->"))
  | .pi d => some ((if inPre then [] else prettyIndent indent size) ++ (c%"<?" ++ serializePi d ++ c%"?>"))
  | .doctype name pub sys => some ((if inPre then [] else prettyIndent indent size) ++ serializeDoctype name pub sys)
  | .doc kids => joinKids (if inPre then [] else ['\n']) true (prettyL U size none indent inPre kids)
  | .elem name ns attrs kids tpl content =>
    match serializeStartTag U { htmlNs := isHtmlNs ns } name attrs with
    | none => none
    | some tag =>
      if voidElements.contains name then some ((if inPre then [] else prettyIndent indent size) ++ tag)
      else if name = c%"template" && tpl && isHtmlNs ns then
        prettyElem U size indent inPre name (textCtx name ns) tag (prettyKids U size none indent content)
      else prettyElem U size indent inPre name (textCtx name ns) tag (prettyKids U size (textCtx name ns) indent kids)
/-- The children of a fragment. -/
def prettyL (U : Uni) (size : Nat) (ctx : Option Str) (indent : Nat) (inPre : Bool) : List Node → List (Option Str)
  | [] => []
  | n :: ns => pretty U size ctx indent inPre n :: prettyL U size ctx indent inPre ns
/-- The children of an element. -/
def prettyKids (U : Uni) (size : Nat) (ctx : Option Str) (indent : Nat) : List Node → List Kid
  | [] => []
  | n :: ns => ⟨n, pretty U size ctx (indent + 1) false n, pretty U size ctx 0 false n, pretty U size ctx (indent + 1) true n⟩ ::
      prettyKids U size ctx indent ns
end

/-- `to_html(indent, indent_size)` (pretty, context HTML) of a document with these children (serializer/html.py:863-866). -/
def toHtmlPrettyDoc (U : Uni) (size indent : Nat) (kids : List Node) : Option Str :=
  joinKids ['\n'] false (prettyL U size none indent false kids)

/-- `to_html(indent, indent_size)` of any other node; `ctx` is what its parent tells about text. -/
def toHtmlPretty (U : Uni) (size : Nat) (ctx : Option Str) (indent : Nat) (n : Node) : Option Str := pretty U size ctx indent false n

end JH
