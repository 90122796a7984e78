import Verif.Model.Serialize
import Verif.Model.TextOps

/-! Model of /repo/src/justhtml/serializer/markdown.py. -/
namespace JH

/-- The characters of `"\\`*_[]"` (serializer/markdown.py:28). -/
def mdSpecial (c : Char) : Bool := c = '\\' || c = '`' || c = '*' || c = '_' || c = '[' || c = ']'

/-- serializer/markdown.py:20-30: what one character becomes. -/
def mdEscapeC (c : Char) : Str :=
  if c = '&' then c%"&amp;" else if c = '<' then c%"&lt;" else if mdSpecial c then ['\\', c] else [c]

/-- serializer/markdown.py:14-31 `_markdown_escape_text`. -/
def mdEscapeText (s : Str) : Str := s.flatMap mdEscapeC

/-- Line boundaries of `str.splitlines()`. -/
def isLineBreak (c : Char) : Bool :=
  c = '\n' || c = '\r' || c = '\x0b' || c = '\x0c' || c = '\x1c' || c = '\x1d' || c = '\x1e' || c = '\x85' ||
  c = '\u2028' || c = '\u2029'

/-- `str.splitlines()`; `w` is the current line, reversed. "\r\n" is one boundary and a final boundary adds no line. -/
def splitLines : Str → Str → List Str
  | w, [] => if w.isEmpty then [] else [w.reverse]
  | w, '\r' :: '\n' :: t => w.reverse :: splitLines [] t
  | w, c :: t => if isLineBreak c then w.reverse :: splitLines [] t else splitLines (c :: w) t

/-- serializer/markdown.py:53-65, the loop of `_markdown_backtick_fence`: `run` and `longest`. -/
def longestRun : Nat → Nat → Str → Nat
  | _, longest, [] => longest
  | run, longest, c :: t =>
    if c = '`' then longestRun (run + 1) (if run + 1 > longest then run + 1 else longest) t
    else longestRun 0 longest t

/-- serializer/markdown.py:53-66 `_markdown_backtick_fence`. -/
def mdFence (s : Str) (minimum : Nat) : Str := List.replicate (max minimum (longestRun 0 0 s + 1)) '`'

/-- serializer/markdown.py:42-43: the single-line form of a code span's text. -/
def mdSpanText (s : Str) : Str := if s.contains '\n' || s.contains '\r' then join [' '] (splitLines [] s) else s

/-- serializer/markdown.py:34-50 `_markdown_code_span`. -/
def mdCodeSpan (s : Str) : Str :=
  if s.isEmpty then []
  else
    let t := mdSpanText s
    let f := mdFence t 1
    if startsWith ['`'] t || endsWith ['`'] t then f ++ [' '] ++ t ++ [' '] ++ f else f ++ t ++ f

/-- `ch in " \t"`. -/
def isBlank (c : Char) : Bool := c = ' ' || c = '\t'

/-- serializer/markdown.py:68-80 `_markdown_thematic_or_setext_line`. -/
def mdMarkerLine (s : Str) (marker : Char) (minimum : Nat) : Bool :=
  let t := rstripP isBlank s
  if t.isEmpty then false
  else t.all (fun c => isBlank c || c = marker) && decide (minimum ≤ (t.filter fun c => !isBlank c).length)

/-- serializer/markdown.py:83-128 `_markdown_escape_line_start`: the replacement and the rest of the text after the consumed part. -/
def mdLineStart (U : Uni) (s : Str) : Option (Str × Str) :=
  match s with
  | [] => none
  | first :: rest =>
    if first = '#' then
      match rest with
      | [] => some (c%"\\#", rest)
      | d :: _ => if isBlank d then some (c%"\\#", rest) else none
    else if first = '>' then some (c%"\\>", rest)
    else if first = '-' then
      if rest.head?.any isBlank || mdMarkerLine s '-' 3 then some (c%"\\-", rest) else none
    else if first = '+' then
      if rest.head?.any isBlank then some (c%"\\+", rest) else none
    else if first = '=' then
      if mdMarkerLine s '=' 1 then some (c%"\\=", rest) else none
    else if first = '~' then
      if startsWith c%"~~~" s then some (c%"\\~", rest) else none
    else if first = '`' then
      if startsWith c%"```" s then some (c%"\\`", rest) else none
    else if U.isDigit first then
      match rest.dropWhile U.isDigit with
      | p :: q :: r =>
        if (p = '.' || p = ')') && isBlank q then some (first :: rest.takeWhile U.isDigit ++ ['\\', p], q :: r) else none
      | _ => none
    else none

/-- `safe=":/?#[]@!$&'*+,;=%-._~()"` (serializer/markdown.py:149). -/
def mdUrlSafe (c : Char) : Bool := c%":/?#[]@!$&'*+,;=%-._~()".contains c

/-- The characters of serializer/markdown.py:148. -/
def mdNeedsWrap (c : Char) : Bool :=
  c = ' ' || c = '\t' || c = '\n' || c = '\r' || c = '(' || c = ')' || c = '<' || c = '>'

/-- serializer/markdown.py:131-152 `_markdown_link_destination`. -/
def mdLinkDest (U : Uni) (url : Str) : Str :=
  let u := stripP U.isSpace url
  if u.isEmpty then []
  else if u.any mdNeedsWrap then ['<'] ++ urlQuote mdUrlSafe u ++ ['>'] else u

/-- serializer/markdown.py:156-178 `_MarkdownBuilder`. `buf` is `_buf` in reverse order (the last segment first). -/
structure MdB where
  buf : List Str
  depth : Nat
  lead : Bool
  nl : Nat
  pend : Bool

/-- serializer/markdown.py:167-172 `__init__`. -/
def MdB.new (depth : Nat) : MdB := { buf := [], depth := depth, lead := false, nl := 0, pend := false }

/-- `self._buf[-1].endswith((" ", "\t"))`. -/
def MdB.endsBlank (b : MdB) : Bool := (b.buf.head?.bind List.getLast?).any isBlank

/-- `self._buf[-1].endswith("`")`. -/
def MdB.endsTick (b : MdB) : Bool := (b.buf.head?.bind List.getLast?).any (· = '`')

/-- serializer/markdown.py:174-180 `_rstrip_last_segment` and `newline(1)`. -/
def MdB.newline1 (b : MdB) : MdB :=
  { b with
    pend := false
    buf := ['\n'] :: (match b.buf with | [] => [] | l :: r => rstripP isBlank l :: r)
    nl := if b.nl < 2 then b.nl + 1 else b.nl }

/-- serializer/markdown.py:191-193 `ensure_newlines`: at most two newlines are ever needed. -/
def MdB.ensure (b : MdB) (count : Nat) : MdB :=
  if b.nl < count then
    let b1 := b.newline1
    if b1.nl < count then b1.newline1 else b1
  else b

/-- `ensure_newlines(2 if self._buf else 0)`. -/
def MdB.ensureBlock (b : MdB) : MdB := if b.buf.isEmpty then b else b.ensure 2

/-- serializer/markdown.py:218-229: newlines at the end of a raw segment. -/
def trailingNl (s : Str) : Nat := (s.reverse.takeWhile (· = '\n')).length

/-- serializer/markdown.py:201-210: the separating space before a raw segment. -/
def MdB.flushRaw (b : MdB) (first : Char) : MdB :=
  if b.pend then
    { b with
      buf := if !isHtmlSpace first && !b.buf.isEmpty && b.nl = 0 && !b.endsBlank then [' '] :: b.buf else b.buf
      pend := false }
  else b

/-- serializer/markdown.py:195-229 `raw`. -/
def MdB.raw (b : MdB) (s : Str) : MdB :=
  match s with
  | [] => b
  | first :: _ =>
    let b1 := b.flushRaw first
    let b2 := if !b1.buf.isEmpty && b1.nl = 0 && b1.endsTick && first = '`' then { b1 with buf := [' '] :: b1.buf } else b1
    let b3 := { b2 with buf := s :: b2.buf }
    if s.contains '\n' then
      { b3 with nl := min 2 (trailingNl s), pend := if trailingNl s = 0 then b3.pend else false }
    else { b3 with nl := 0 }

/-- serializer/markdown.py:250-254: a pending collapsed space is written before the next character. -/
def MdB.flushText (b : MdB) : MdB :=
  if b.pend then
    { b with buf := if !b.buf.isEmpty && b.nl = 0 && !b.endsBlank then [' '] :: b.buf else b.buf, pend := false }
  else b

/-- serializer/markdown.py:239-266, the loop of `text(s)` (`preserve_whitespace` false). `fuel` bounds the number of iterations; the
length of `s` is enough because every iteration consumes a character. -/
def MdB.textF (U : Uni) : Nat → MdB → Str → MdB
  | 0, b, _ => b
  | _ + 1, b, [] => b
  | n + 1, b, c :: t =>
    if isHtmlSpace c then
      MdB.textF U n { b with lead := b.lead || b.buf.isEmpty, pend := true } t
    else
      let b1 := b.flushText
      match (if b1.buf.isEmpty || decide (b1.nl > 0) then mdLineStart U (c :: t) else none) with
      | some (r, rest) => MdB.textF U n { b1 with buf := r :: b1.buf, nl := 0 } rest
      | none => MdB.textF U n { b1 with buf := [c] :: b1.buf, nl := 0 } t

/-- serializer/markdown.py:234-269 `text(s)`. -/
def MdB.text (U : Uni) (b : MdB) (s : Str) : MdB := MdB.textF U s.length b s

/-- The joined buffer. -/
def MdB.out (b : MdB) : Str := b.buf.reverse.flatten

/-- `" \t\n"`. -/
def isFinishStrip (c : Char) : Bool := c = ' ' || c = '\t' || c = '\n'

/-- serializer/markdown.py:268-270 `finish`. -/
def MdB.finish (b : MdB) : Str := stripP isFinishStrip b.out

/-- `_MAX_BLOCKQUOTE_DEPTH` (serializer/markdown.py:155). -/
def maxBlockquoteDepth : Nat := 64

/-- serializer/markdown.py:273-298 `_MARKDOWN_BLOCK_ELEMENTS`. -/
def mdBlocks : List Str :=
  [c%"p", c%"div", c%"section", c%"article", c%"header", c%"footer", c%"main", c%"nav", c%"aside", c%"blockquote", c%"pre",
   c%"ul", c%"ol", c%"li", c%"hr", c%"h1", c%"h2", c%"h3", c%"h4", c%"h5", c%"h6", c%"table"]

/-- `h1` … `h6`: the heading level. -/
def mdHeading (tag : Str) : Option Nat :=
  if tag = c%"h1" then some 1 else if tag = c%"h2" then some 2 else if tag = c%"h3" then some 3
  else if tag = c%"h4" then some 4 else if tag = c%"h5" then some 5 else if tag = c%"h6" then some 6 else none

/-- `to_text(separator="", strip=False)` (serializer/markdown.py:387, 403). -/
def mdCodeText (n : Node) : Str :=
  match toText id [] n with
  | .ok s => s
  | _ => []

/-- serializer/markdown.py:512-522 `after_blockquote`: write the quoted text line by line. -/
def mdQuoteLines (b : MdB) : Bool → List Str → MdB
  | _, [] => b
  | first, l :: ls => mdQuoteLines (((if first then b else b.newline1).raw c%"> ").raw l) false ls

/-- `after_blockquote`. -/
def mdAfterQuote (b : MdB) (text : Str) : MdB :=
  let b1 := b.ensureBlock
  (if text.isEmpty then b1 else mdQuoteLines b1 true (splitC '\n' text)).ensure 2

/-- serializer/markdown.py:556-570 `after_marker`. -/
def mdAfterMarker (U : Uni) (b : MdB) (inner : MdB) (marker : Str) : MdB :=
  let content := inner.finish
  let b1 := if inner.lead then b.text U [' '] else b
  if !content.isEmpty && content.contains '\n' then b1.ensureBlock.raw content
  else
    let b2 := if content.isEmpty then b1 else ((b1.raw marker).raw content).raw marker
    if inner.pend then b2.text U [' '] else b2

/-- serializer/markdown.py:572-586 `after_link`. -/
def mdAfterLink (U : Uni) (b : MdB) (inner : MdB) (href : Str) : MdB :=
  let b1 := if inner.lead then b.text U [' '] else b
  let b2 := ((b1.raw ['[']).raw inner.finish).raw [']']
  let b3 := if href.isEmpty then b2 else ((b2.raw ['(']).raw (mdLinkDest U href)).raw [')']
  if inner.pend then b3.text U [' '] else b3

/-- serializer/markdown.py:386-400: a `pre` element outside a link. -/
def mdPre (b : MdB) (code : Str) : MdB :=
  let f := mdFence code 3
  let b1 := (b.ensureBlock.raw f).newline1
  let b2 := if code.isEmpty then b1 else (b1.raw (rstripP (· = '\n') code)).newline1
  (b2.raw f).ensure 2

/-- End of a block: a space inside links, a blank line otherwise (serializer/markdown.py:505-515, 592-595). -/
def mdAfterBlock (U : Uni) (b : MdB) (inLink : Bool) : MdB := if inLink then b.text U [' '] else b.ensure 2

/-- `attrs["href"]` (serializer/markdown.py:472-474); an absent or `None` value is the empty string. -/
def mdHref (attrs : List (Str × Option Str)) : Str :=
  match attrs.find? (fun p => p.1 = c%"href") with
  | some (_, some v) => v
  | _ => []

/-- Decimal digits of a list item number (`f"{index}. "`). -/
def natDigits (n : Nat) : Str := Nat.toDigits 10 n


mutual
/-- serializer/markdown.py:301-595 `_to_markdown_walk`, kind "visit". Simplifications: the explicit task stack is replaced by recursion
(tasks are pushed so that they run in exactly this order); `current_preserve` is dropped because it is never true (the
elements that would set it are handled by an earlier `continue`); `html` stands for `to_html(pretty=False)`. -/
def mdVisit (U : Uni) (html : Node → Str) (pass : Bool) (b : MdB) (ld : Nat) (inLink : Bool) : Node → MdB
  | .text d => b.text U (mdEscapeText d)
  | .comment _ => b
  | .pi _ => b
  | .doctype _ _ _ => b
  | .doc kids => mdVisitL U html pass b ld inLink kids
  | .elem name ns attrs kids tpl content =>
    let tag := U.lower name
    if name = c%"br" then (if inLink then b.text U [' '] else b.newline1)
    else if tag = c%"head" || tag = c%"title" then b
    else if tag = c%"img" then b.raw (html (.elem name ns attrs kids tpl content))
    else if tag = c%"table" || tag = c%"script" || tag = c%"style" || tag = c%"textarea" then
      let b1 := if inLink then b else b.ensureBlock
      let b2 := if tag = c%"table" || pass then b1.raw (html (.elem name ns attrs kids tpl content)) else b1
      if inLink then b2 else b2.ensure 2
    else match mdHeading tag with
    | some k =>
      let b1 := if inLink then b else (b.ensureBlock.raw (List.replicate k '#')).raw [' ']
      let b2 := mdVisitL U html pass b1 ld inLink kids
      if inLink then b2 else b2.ensure 2
    | none =>
    if tag = c%"hr" then (if inLink then b else (b.ensureBlock.raw c%"---").ensure 2)
    else if tag = c%"pre" then
      let code := mdCodeText (.elem name ns attrs kids tpl content)
      if inLink then b.raw (mdCodeSpan code) else mdPre b code
    else if tag = c%"code" then b.raw (mdCodeSpan (mdCodeText (.elem name ns attrs kids tpl content)))
    else if tag = c%"p" then
      mdAfterBlock U (mdVisitL U html pass (if inLink then b else b.ensureBlock) ld inLink kids) inLink
    else if tag = c%"blockquote" then
      if inLink then mdVisitL U html pass b ld inLink kids
      else if b.depth < maxBlockquoteDepth then
        mdAfterQuote b (mdVisitL U html pass (MdB.new (b.depth + 1)) ld inLink kids).finish
      else mdVisitL U html pass b ld inLink kids
    else if tag = c%"ul" || tag = c%"ol" then
      if inLink then mdFlatL U html pass b ld kids
      else (mdItems U html pass b.ensureBlock ld (tag = c%"ol") 1 kids).ensure 2
    else if tag = c%"em" || tag = c%"i" then
      mdAfterMarker U b (mdVisitL U html pass (MdB.new b.depth) ld inLink kids) c%"*"
    else if tag = c%"strong" || tag = c%"b" then
      mdAfterMarker U b (mdVisitL U html pass (MdB.new b.depth) ld inLink kids) c%"**"
    else if tag = c%"a" then
      mdAfterLink U b (mdVisitL U html pass (MdB.new b.depth) ld true kids) (mdHref attrs)
    else
      let isBlock := mdBlocks.contains tag
      let b1 := if isBlock && !inLink then b.ensureBlock else b
      let b2 := mdVisitL U html pass b1 ld inLink kids
      let b3 := if tpl then mdVisitL U html pass b2 ld inLink content else b2
      if isBlock then mdAfterBlock U b3 inLink else b3
/-- The children, in order. -/
def mdVisitL (U : Uni) (html : Node → Str) (pass : Bool) (b : MdB) (ld : Nat) (inLink : Bool) : List Node → MdB
  | [] => b
  | n :: ns => mdVisitL U html pass (mdVisit U html pass b ld inLink n) ld inLink ns
/-- serializer/markdown.py:443-451, 534-546: list items outside links ("list_separator", "visit_list_item"); children that are not
`li` elements are skipped. -/
def mdItems (U : Uni) (html : Node → Str) (pass : Bool) (b : MdB) (ld : Nat) (ordered : Bool) (index : Nat) : List Node → MdB
  | [] => b
  | .elem name _ _ kids _ _ :: ns =>
    if U.lower name = c%"li" then
      let b1 := if index = 1 then b else b.newline1
      let b2 := (b1.raw (List.replicate ld c%"  ").flatten).raw (if ordered then natDigits index ++ c%". " else c%"- ")
      mdItems U html pass (mdVisitL U html pass b2 (ld + 1) false kids) ld ordered (index + 1) ns
    else mdItems U html pass b ld ordered index ns
  | _ :: ns => mdItems U html pass b ld ordered index ns
/-- serializer/markdown.py:438-442, 548-555: list items inside links ("flatten_list_item"). -/
def mdFlatL (U : Uni) (html : Node → Str) (pass : Bool) (b : MdB) (ld : Nat) : List Node → MdB
  | [] => b
  | .elem name _ _ kids _ _ :: ns =>
    if U.lower name = c%"li" then mdFlatL U html pass (mdVisitL U html pass (b.raw [' ']) (ld + 1) true kids) ld ns
    else mdFlatL U html pass b ld ns
  | _ :: ns => mdFlatL U html pass b ld ns
end

/-- serializer/markdown.py:596-607 `to_markdown`. -/
def toMarkdown (U : Uni) (html : Node → Str) (pass : Bool) (n : Node) : Str :=
  (mdVisit U html pass (MdB.new 0) 0 false n).finish

end JH
