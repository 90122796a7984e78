import Verif.Model.StartTag

/-! Model of the event scanner /repo/src/justhtml/parser/stream.py and its helpers in parser/scanner.py. Positions into
`html` are replaced by suffixes; `end` is the end of the input. -/
namespace JH

/-- parser/stream.py:20-25 `StreamEvent`. -/
inductive Event where
  | start (name : Str) (attrs : List (Str × Str))
  | «end» (name : Str)
  | text (data : Str)
  | comment (data : Str)
  | doctype (name pub sys : Option Str)
  deriving DecidableEq, Repr

/-- Namespaces of open elements. -/
inductive Ns where
  | html | svg | math
  deriving DecidableEq, Repr

/-- parser/stream.py:41-65 `_StreamNode`: name, namespace and the precomputed `html_integration` flag. -/
structure ONode where
  name : Str
  ns : Ns
  htmlIntegration : Bool

/-- Constant tables of core/constants.py and the doctype regular expression (parser/stream.py:27-30, 266-291), as parameters of
the model: theorems hold for every choice of them. -/
structure StreamTables where
  /-- `FOREIGN_BREAKOUT_ELEMENTS` -/
  breakout : Str → Bool
  /-- `(ns, name) in HTML_INTEGRATION_POINT_SET` -/
  htmlIP : Ns → Str → Bool
  /-- `(ns, name) in MATHML_TEXT_INTEGRATION_POINT_SET` -/
  mathIP : Ns → Str → Bool
  /-- `SVG_TAG_NAME_ADJUSTMENTS.get(name, name)` -/
  svgAdjust : Str → Str
  /-- the doctype's name, public and system identifier extracted by `_DOCTYPE_RE` from the text between `doctype` and `>` -/
  doctype : Str → Option Str × Option Str × Option Str

/-- parser/stream.py:31 `_RAWTEXT_TAGS`. -/
def rawtextTags : List Str :=
  [c%"script", c%"style", c%"iframe", c%"noembed", c%"noframes", c%"noscript", c%"xmp"]

/-- parser/stream.py:32 `_RCDATA_TAGS`. -/
def rcdataTags : List Str := [c%"textarea", c%"title"]

/-- parser/stream.py:412-413 `data.replace("\r\n", "\n").replace("\r", "\n")`. -/
def newlines : Str → Str
  | [] => []
  | ['\r'] => ['\n']
  | '\r' :: '\n' :: r => '\n' :: newlines r
  | '\r' :: c :: r => '\n' :: newlines (c :: r)
  | c :: r => c :: newlines r

/-- parser/stream.py:402-419 `_append_text`: the text added to the buffer; `none` = ValueError. -/
def bufText (U : Uni) (T : EntTables) (raw replaceNull : Bool) (data : Str) : Option Str :=
  let d := newlines data
  let d := if replaceNull then nulFix d else d
  if raw then some d else decodeEntities U T false d

/-- parser/stream.py:421-427 `_flush_text`. -/
def flush (buf : Str) : List Event := if buf.isEmpty then [] else [.text buf]

/-- parser/scanner.py:12-18 `ascii_startswith(html, needle, pos)`, for a lower-case ASCII needle. -/
def asciiStarts (needle s : Str) : Bool :=
  let c := s.take needle.length
  c.all isAscii && lowerA c = needle

/-- parser/scanner.py:21-46 `ascii_find`, for a lower-case ASCII needle: the offset of the leftmost case-insensitive match. (The
code skips from one candidate first character to the next; the result is the leftmost match.) -/
def asciiFind (needle : Str) : Str → Option Nat
  | [] => if needle.isEmpty then some 0 else none
  | c :: s => if asciiStarts needle (c :: s) then some 0 else (asciiFind needle s).map (· + 1)

/-- parser/scanner.py:72-84 `find_tag_end`: offset of the first `>` outside quotes; `q` is the open quote. -/
def findTagEnd : Option Char → Str → Option Nat
  | _, [] => none
  | some q, c :: s => (findTagEnd (if c = q then none else some q) s).map (· + 1)
  | none, c :: s =>
    if c = '"' || c = '\'' then (findTagEnd (some c) s).map (· + 1)
    else if c = '>' then some 0
    else (findTagEnd none s).map (· + 1)

/-- parser/scanner.py:87-109 `find_rawtext_end_tag`: offsets of the end tag and of the text after it. `off` is the offset of `s`
in the searched text; `fuel` bounds the iterations. -/
def findRawEndF (needle : Str) : Nat → Nat → Str → Option (Nat × Nat)
  | 0, _, _ => none
  | n + 1, off, s =>
    match asciiFind needle s with
    | none => none
    | some k =>
      let after := s.drop (k + needle.length)
      match after with
      | [] => none                                   -- a bare `</name` at the end of the input
      | c :: _ =>
        if !isTagBoundary c then findRawEndF needle n (off + k + needle.length) after
        else match findTagEnd none after with
          | none => some (off + k, off + s.length)
          | some j => some (off + k, off + k + needle.length + j + 1)

/-- `find_rawtext_end_tag(html, name, pos, end)` on the text `s = html[pos:end]`. -/
def findRawEnd (name s : Str) : Option (Nat × Nat) := findRawEndF (c%"</" ++ name) (s.length + 1) 0 s

/-- parser/scanner.py:165-181 `find_script_start_marker(html, pos, end, text_end)`, with positions in `h`. -/
def findScriptStartF (h : Str) : Nat → Nat → Nat → Option Nat
  | 0, _, _ => none
  | n + 1, pos, stop =>
    match asciiFind c%"<script" ((h.take stop).drop pos) with
    | none => none
    | some k =>
      match h.drop (pos + k + 7) with
      | [] => some (pos + k)
      | c :: _ => if isTagBoundary c then some (pos + k) else findScriptStartF h n (pos + k + 7) stop

/-- parser/scanner.py:112-162 `find_script_end_tag`, with positions in `h` (the text after the start tag). -/
def findScriptEndF (h : Str) : Nat → Nat → Bool → Bool → Option (Nat × Nat)
  | 0, _, _, _ => none
  | n + 1, search, escaped, dbl =>
    match findRawEndF c%"</script" (h.length + 1) search (h.drop search) with
    | none => none
    | some (close, next) =>
      if !escaped then
        match find? c%"<!--" ((h.take close).drop search) with
        | none => some (close, next)
        | some k => findScriptEndF h n (search + k + 2) true dbl
      else
        let scriptStart := if !dbl then findScriptStartF h (h.length + 1) search close else none
        let commentEnd := (find? c%"-->" ((h.take close).drop search)).map (search + ·)
        match commentEnd, scriptStart with
        | some ce, none => findScriptEndF h n (ce + 3) false false
        | some ce, some ss =>
          if dbl || ce < ss then findScriptEndF h n (ce + 3) false false
          else findScriptEndF h n (ss + 7) true true
        | none, some ss => findScriptEndF h n (ss + 7) true true
        | none, none =>
          if dbl then
            match asciiFind c%"</script" ((h.take next).drop (close + 8)) with
            | some k =>
              match h.drop (close + 8 + k + 8) with
              | [] => findScriptEndF h n (close + 8) true false
              | c :: _ => if isTagBoundary c then findScriptEndF h n (close + 8) true false
                          else findScriptEndF h n next true false
            | none => findScriptEndF h n next true false
          else some (close, next)

/-- parser/stream.py:394-397 `_find_rawtext_end_tag`. -/
def findClose (name s : Str) : Option (Nat × Nat) :=
  if name = c%"script" then findScriptEndF s (s.length + 1) 0 false false else findRawEnd name s

/-- parser/stream.py:446-451 `_namespace_from_html_context`. -/
def nsFromHtml (name : Str) : Ns := if name = c%"svg" then .svg else if name = c%"math" then .math else .html

/-- parser/stream.py:469-471, 477-479: pop foreign elements off the stack (top first). -/
def popForeign (st : List ONode) : List ONode := st.dropWhile fun n => n.ns ≠ .html

/-- parser/stream.py:453-475 `_namespace_for_start_tag`: the new element's namespace and the stack after breaking out. -/
def nsForStart (U : Uni) (K : StreamTables) (name : Str) (attrs : List (Str × Str)) (st : List ONode) : Ns × List ONode :=
  match st with
  | [] => (nsFromHtml name, st)
  | p :: _ =>
    if p.htmlIntegration then (nsFromHtml name, st)
    else if K.mathIP p.ns p.name && !(name = c%"mglyph" || name = c%"malignmark") then (nsFromHtml name, st)
    else if p.ns = .math && p.name = c%"annotation-xml" && name = c%"svg" then (.svg, st)
    else if p.ns ≠ .html then
      if K.breakout name || (name = c%"font" && attrs.any (fun a =>
          U.lower a.1 = c%"color" || U.lower a.1 = c%"face" || U.lower a.1 = c%"size")) then
        (nsFromHtml name, popForeign st)
      else (p.ns, st)
    else (nsFromHtml name, st)

/-- parser/stream.py:48-65 construction of `_StreamNode`, with `_adjusted_name_for_namespace` (441-444). -/
def mkONode (U : Uni) (K : StreamTables) (name : Str) (ns : Ns) (attrs : List (Str × Str)) : ONode :=
  let name := if ns = .svg then K.svgAdjust name else name
  let integ := if ns = .math && name = c%"annotation-xml" then
      match attrs.find? (fun a => U.lower a.1 = c%"encoding") with
      | some a => U.lower a.2 = c%"application/xhtml+xml" || U.lower a.2 = c%"text/html"
      | none => false
    else K.htmlIP ns name
  { name, ns, htmlIntegration := integ }

/-- parser/stream.py:481-499 `_pop_for_end_tag`, by scanning the stack (top first); `Verif/Model/StreamStack.lean` models the
position indexes the code uses instead of the scan. -/
def popForEnd (U : Uni) (name : Str) (st : List ONode) : List ONode :=
  match st with
  | [] => []
  | top :: rest =>
    if top.ns ≠ .html && (U.lower name = c%"br" || U.lower name = c%"p") then popForeign st
    else
      -- the nearest element of that name, if no HTML element is above it
      let above := st.takeWhile (fun n => U.lower n.name ≠ U.lower name)
      if st.any (fun n => U.lower n.name = U.lower name) && above.all (fun n => n.ns ≠ .html) then
        st.drop (above.length + 1)
      else rest

/-- Result of `_parse_markup_declaration` (parser/stream.py:233-303): an event, or CDATA text. -/
inductive Decl where
  | event (e : Event)
  | cdata (t : Str)

/-- Text before the first occurrence of a needle, and after it; everything if there is none. -/
def upTo (needle s : Str) : Str × Str :=
  match find? needle s with
  | some k => (s.take k, s.drop (k + needle.length))
  | none => (s, [])

/-- parser/stream.py:238-254: a comment; `s` is the text after `<!--`. -/
def parseComment (s : Str) : Str × Str :=
  if startsWith c%">" s then ([], s.drop 1)
  else if startsWith c%"->" s then ([], s.drop 2)
  else match find? c%"-->" s, find? c%"--!>" s with
    | some a, some b => if b ≤ a then (nulFix (s.take b), s.drop (b + 4)) else (nulFix (s.take a), s.drop (a + 3))
    | some a, none => (nulFix (s.take a), s.drop (a + 3))
    | none, some b => (nulFix (s.take b), s.drop (b + 4))
    | none, none => (nulFix (if endsWith c%"--" s then s.take (s.length - 2) else s), [])

/-- parser/stream.py:233-303 `_parse_markup_declaration`; `s` is the text after `<!`. -/
def parseDecl (K : StreamTables) (foreign : Bool) (s : Str) : Decl × Str :=
  if startsWith c%"--" s then
    let (d, r) := parseComment (s.drop 2)
    (.event (.comment d), r)
  else if asciiStarts c%"doctype" s then
    let (d, r) := upTo c%">" (s.drop 7)
    let (a, b, c) := K.doctype d
    (.event (.doctype a b c), r)
  else if asciiStarts c%"[cdata[" s && foreign then
    let (d, r) := upTo c%"]]>" (s.drop 7)
    (.cdata d, r)
  else
    let (d, r) := upTo c%">" s
    (.event (.comment (nulFix d)), r)

/-- parser/stream.py:320-333 `_parse_end_tag` after the letter check, followed by parser/stream.py:166-168: the name and the rest, or
`none` when the end tag is dropped because the input ends inside it. `s` is the text after `</`. -/
def parseEndTag (U : Uni) (s : Str) : Option (Str × Str) :=
  let name := s.takeWhile fun c => !isTagBoundary c
  match findTagEnd none (s.dropWhile fun c => !isTagBoundary c) with
  | some j => some (U.lower name, (s.dropWhile fun c => !isTagBoundary c).drop (j + 1))
  | none => if s.getLast? = some '>' then some (U.lower name, []) else none

/-- parser/stream.py:501-505 `_in_foreign_context`. -/
def inForeign (st : List ONode) : Bool := match st with
  | [] => false
  | n :: _ => n.ns ≠ .html

/-- Prepend events to a result. -/
def Scan.pre (es : List Event) : Scan (List Event) → Scan (List Event)
  | .ok r => .ok (es ++ r)
  | .unclosed => .unclosed
  | .error => .error

/-- parser/stream.py:197-229: what happens after a start tag has been read. Result: the events, the new stack and the rest;
the text of a raw-text element is emitted together with its end tag. The final component is text left in the buffer. -/
def afterStart (U : Uni) (T : EntTables) (K : StreamTables) (name : Str) (attrs : List (Str × Str)) (sc : Bool)
    (st : List ONode) (rest : Str) : Option (List Event × List ONode × Str × Str) :=
  let ns := (nsForStart U K name attrs st).1
  let st1 := (nsForStart U K name attrs st).2
  let st2 := if sc && ns ≠ .html then st1 else mkONode U K name ns attrs :: st1
  if ns = .html then
    if name = c%"plaintext" then (bufText U T true true rest).map fun t => ([], st2, [], t)
    else if rawtextTags.contains name || rcdataTags.contains name then
      match findClose name rest with
      | none => (bufText U T (!rcdataTags.contains name) true rest).map fun t => ([], st2, [], t)
      | some (close, after) =>
        (bufText U T (!rcdataTags.contains name) true (rest.take close)).map fun t =>
          (flush t ++ [.end name], popForEnd U name st2, rest.drop after, [])
    else some ([], st2, rest, [])
  else some ([], st2, rest, [])

/-- parser/stream.py:111-231 `scan`, the main loop. `buf` is the joined text buffer. `.error` = ValueError; `.unclosed` = the
fuel ran out (`stream` supplies enough). -/
def scanF (U : Uni) (T : EntTables) (K : StreamTables) : Nat → List ONode → Str → Str → Scan (List Event)
  | 0, _, _, _ => .unclosed
  | n + 1, st, buf, s =>
    match splitAt1 '<' s with
    | none =>
      match bufText U T false false s with
      | none => .error
      | some t => .ok (flush (buf ++ t))
    | some (pre, post) =>
      match bufText U T false false pre with
      | none => .error
      | some t =>
        let buf := buf ++ t
        match post with
        | [] => .ok (flush (buf ++ ['<']))
        | c :: r =>
          if c = '!' then
            match parseDecl K (inForeign st) r with
            | (.event e, rest) => (scanF U T K n st [] rest).pre (flush buf ++ [e])
            | (.cdata d, rest) => (scanF U T K n st [] rest).pre (flush buf ++ flush (newlines d))
          else if c = '/' then
            match r with
            | [] => .ok (flush (buf ++ c%"</"))
            | c2 :: r2 =>
              if !isAsciiAlpha c2 then
                if c2 = '>' then scanF U T K n st buf r2
                else
                  (scanF U T K n st [] (upTo c%">" r).2).pre (flush buf ++ [.comment (nulFix (upTo c%">" r).1)])
              else
                match parseEndTag U r with
                | none => .ok (flush buf)
                | some (name, rest) => (scanF U T K n (popForEnd U name st) [] rest).pre (flush buf ++ [.end name])
          else if c = '?' then
            (scanF U T K n st [] (upTo c%">" post).2).pre (flush buf ++ [.comment (nulFix (upTo c%">" post).1)])
          else if !isAsciiAlpha c then
            (scanF U T K n st ['<'] post).pre (flush buf)
          else
            match parseStartTag U T post with
            | .error => .error
            | .unclosed => .ok (flush buf)
            | .ok (name, attrs, sc, rest) =>
              match afterStart U T K name attrs sc st rest with
              | none => .error
              | some (es, st', rest', buf') => (scanF U T K n st' buf' rest').pre (flush buf ++ .start name attrs :: es)

/-- parser/stream.py:512-526 `stream(html)` for a string: every iteration consumes at least one character. -/
def stream (U : Uni) (T : EntTables) (K : StreamTables) (s : Str) : Scan (List Event) := scanF U T K (s.length + 1) [] [] s

end JH
