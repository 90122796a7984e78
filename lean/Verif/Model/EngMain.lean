import Verif.Model.EngStart
import Verif.Model.Tree

/-! Model of the main loop and of the last steps of a parse in /repo/src/justhtml/parser/engine.py. -/
namespace JH.Eng

/-! ### The main loop -/

/-- parser/engine.py:1274-1276, 2026-2040: may the text be appended without further ado? (XML coercion is not modelled.) -/
def fastTextOk (C : Cfg) (s : St) : Bool :=
  s.quirks ≠ .unset && C.ctxName.isNone && !C.locs && !(s.mFrameset || s.mColgroup || s.mNoscript || s.mAfter || s.mTpl) && !s.fmtDirty &&
  s.fosterWs = 0 && !s.ignoreLf && isHtmlNs (s.n s.top).ns && !slowText.contains s.topName &&
  (s.top ≠ s.body || s.bodyExplicit || s.bodySeen || s.bodyHasContent)

/-- parser/engine.py:2041-2058: append it. -/
def fastText (raw : Str) : EM Unit := do
  let t ← orErr fun C => cleanText C false raw
  whQ (fun _ _ => !t.isEmpty) (do
    let p ← q fun _ s => s.top
    appendNew p (textNode t))

/-- parser/engine.py:2020-2060: the text before the next `<`. -/
def textRun (raw : Str) : EM Unit := whQ (fun _ _ => !raw.isEmpty) (iteQ fastTextOk (fastText raw) (appendText raw))

/-- parser/engine.py:2001-2018: are the compiled functions used? -/
def useSafe (C : Cfg) : Bool := !C.plan.rawMode && !C.locs && !C.spans

/-- `if self._ignore_lf and …: self._ignore_lf = False`. -/
def resetLf (b : Bool) : EM Unit := modS fun s => if s.ignoreLf && b then { s with ignoreLf := false } else s

/-- parser/engine.py:2072-2083: does something complete come between the newline exception and later text? `s` is the text after `</`. -/
def endResetsLf (s : Str) : Bool :=
  match s with
  | [] => false
  | c :: r => if isAsciiLetter c then (findTagEnd none r).isSome else true

/-- parser/engine.py:2068-2085: an end tag. -/
def rangeEnd (s : Str) : EM Str := do
  modS fun s => { s with fosterWs := 0 }
  resetLf (endResetsLf s)
  iteQ (fun C _ => useSafe C) (safeEndTag s) (endTag s)

/-- parser/engine.py:2086-2093: a start tag; `s` is the text after `<`. -/
def rangeStart (s : Str) : EM Str := do
  modS fun s => { s with fosterWs := 0 }
  resetLf (findTagEnd none s.tail).isSome
  iteQ (fun C _ => useSafe C) (safeStartTag s) (startTag s)

/-- The input before `<` if `s` follows `<` and one more character. -/
def beforeLt (C : Cfg) (s : Str) : Str := C.html.take (C.html.length - s.length - 2)

/-- `data.removesuffix("-").removesuffix("-")`. -/
def dropDashes (s : Str) : Str :=
  let s := if s.getLast? = some '-' then s.dropLast else s
  if s.getLast? = some '-' then s.dropLast else s

/-- parser/engine.py:2096-2119: a comment; `s` is the text after `<!` and starts with `--`. -/
def rangeComment (s : Str) : EM Str :=
  match commentEnd s with
  | none => do
    iteQ (fun C _ => C.plan.rawMode && C.spans) (appendText (c%"<!" ++ s))
      (whQ (fun C _ => !C.plan.dropComments) (fun C => appendComment (dropDashes (s.drop 2)) (beforeLt C s) C))
    pure []
  | some off => do
    let e := if startsWith c%"!>" (s.drop (off + 1)) then off - 1 else off
    whQ (fun C _ => !C.plan.dropComments) (fun C => appendComment ((s.take e).drop 2) (beforeLt C s) C)
    pure (s.drop (off + 3))

/-- parser/engine.py:2125-2130: a CDATA section; `s` is the text after `<![cdata[`. -/
def rangeCdata (s : Str) : EM Str :=
  match find? c%"]]>" s with
  | none => do
    rawLiteral s
    pure []
  | some k => do
    rawLiteral (s.take k)
    pure (s.drop (k + 3))

/-- parser/engine.py:2133-2141: may a doctype be inserted? -/
def canDoctype (C : Cfg) (s : St) : Bool :=
  !C.fragment && s.quirks = .unset && !s.explicitHtml && !s.bodyExplicit && !s.framesetBlocked && !s.framesetSeen && !s.bodyHasContent

/-- The text up to and with the next `>` (or all). -/
def withGt (s : Str) : Str := s.take (s.length - (skipGt s).length)

/-- parser/engine.py:2131-2157: a doctype; `s` is the text after `<!`. -/
def rangeDoctype (s : Str) : EM Str :=
  iteQ (fun C st => C.plan.rawMode && (C.emitBogus || (C.spans && (!s.contains '>' || !canDoctype C st))))
    (do
      appendText (c%"<!" ++ withGt s)
      pure (skipGt s))
    (parseDoctype (s.drop 7))

/-- parser/engine.py:2158-2165: any other declaration. -/
def rangeBogus (s : Str) : EM Str := do
  iteQ (fun C _ => C.plan.rawMode && C.spans) (appendText (c%"<!" ++ withGt s))
    (whQ (fun C _ => !C.plan.dropComments) (fun C => appendComment (nulFix (s.takeWhile fun c => c ≠ '>')) (beforeLt C s) C))
  pure (skipGt s)

/-- parser/engine.py:2094-2165: `<!`; `s` is the text after it. -/
def rangeBang (s : Str) : EM Str := do
  modS fun s => { s with fosterWs := 0 }
  if startsWith c%"--" s then rangeComment s
  else
    iteQ (fun C st => C.plan.rawMode && asciiStarts c%"[cdata[" s && !isHtmlNs (st.n st.top).ns) (rangeCdata (s.drop 7))
      (if asciiStarts c%"doctype" s then rangeDoctype s else rangeBogus s)

/-- parser/engine.py:2180-2200: is `<?` without `>` kept as a comment? -/
def openPiKept (U : Uni) (s : Str) : Bool :=
  match s with
  | [] => false
  | c :: r =>
    if c = '_' || isAsciiLetter c then startsWith c%"xml" (U.lower (c :: r.takeWhile isPiChar)) else isHtmlSpace c || c = '#'

/-- parser/engine.py:2179-2206: a processing instruction or a bogus comment; `s` is the text after `<?`. -/
def rangePiNode (s : Str) : EM Unit :=
  iteQ (fun C _ => C.plan.dropComments) (pure ())
    (if !s.contains '>' then
      whQ (fun C _ => openPiKept C.E.U s) (fun C => appendComment ('?' :: s) (beforeLt C s) C)
     else fun C =>
      match piData C.E.U (s.takeWhile fun c => c ≠ '>') with
      | some d => appendPi d (beforeLt C s) C
      | none => appendComment (nulFix ('?' :: s.takeWhile fun c => c ≠ '>')) (beforeLt C s) C)

/-- parser/engine.py:2166-2206: `<?`; `s` is the text after it. -/
def rangePi (s : Str) : EM Str := do
  modS fun s => { s with fosterWs := 0, ignoreLf := false }
  iteQ (fun C st => C.plan.rawMode && (C.spans || (1 < st.stack.length && C.plan.rawtextElementTags.contains st.topName)))
    (appendText (c%"<?" ++ withGt s)) (rangePiNode s)
  pure (skipGt s)

/-- parser/engine.py:2062-2211: what follows `<`. -/
def rangeMarkup (s : Str) : EM Str :=
  match s with
  | [] => do
    appendText c%"<"
    pure []
  | c :: r =>
    if c = '/' then rangeEnd r
    else if isAsciiLetter c then rangeStart (c :: r)
    else if c = '!' then rangeBang r
    else if c = '?' then rangePi r
    else if c = '\x00' then do
      appendText c%"<\ufffd"
      pure r
    else do
      appendText c%"<"
      pure (c :: r)

/-- parser/engine.py:2019-2211: one round of the loop; the result is the text that is left. -/
def rangeStep (s : Str) : EM Str := do
  textRun (s.takeWhile fun c => c ≠ '<')
  match s.dropWhile fun c => c ≠ '<' with
  | [] => pure []
  | _ :: r => rangeMarkup r

/-- parser/engine.py:1999-2207 `_parse_range`: the loop. -/
def rangeLoop : Nat → Str → EM Unit
  | 0, _ => pure ()
  | n + 1, s =>
    if s.isEmpty then pure ()
    else do
      let r ← rangeStep s
      rangeLoop n r

/-- parser/engine.py:1999-2207 `_parse_range` on the whole input; every round consumes a character (C78). -/
def parseRange : EM Unit := fun C => rangeLoop C.html.length C.html C

/-! ### Setting up -/

/-- A new element as last child. -/
def addChild (p : Nat) (n : ENode) : EM Nat := fun _ s => (s.heap.length, (s.add n).linkLast p s.heap.length)

/-- parser/engine.py:1674-1692 (and 1641-1662): the elements `html`, `head` and `body`. -/
def buildShell : EM Unit := do
  let d ← q fun _ s => s.doc
  let h ← addChild d (elementNode c%"html" [] (some c%"html"))
  let hd ← addChild h (elementNode c%"head" [] (some c%"html"))
  let b ← addChild h (elementNode c%"body" [] (some c%"html"))
  modS fun s => { s with html := some h, head := some hd, body := b, stack := [s.doc, h, b] }

/-- parser/engine.py:1607, 1673: the root. -/
def buildRoot : EM Unit := do
  let d ← q fun C _ => if C.fragment then ({ kind := .fragment, name := c%"#document-fragment" } : ENode) else { kind := .document, name := c%"#document" }
  let r ← alloc d
  modS fun s => { s with doc := r, body := r, stack := [r] }

/-- parser/engine.py:1641-1662: a fragment of `html`. -/
def setupHtml : EM Unit := do
  buildShell
  modS fun s => { s with ctxNode := s.html }
  whQ (fun C _ => !C.plan.rawMode && !C.plan.allowedTags.contains c%"head") (fun C s => noteUnwrap (s.head.getD 0) C s)
  whQ (fun C _ => !C.plan.rawMode && !C.plan.allowedTags.contains c%"body") (fun C s => noteUnwrap s.body C s)

/-- parser/engine.py:1663-1668: a fragment of another element. -/
def setupContext (name : Str) : EM Unit := do
  let d ← q fun _ s => s.doc
  let ns ← q fun C _ => match C.ctxNs with | some [] => c%"html" | some x => x | none => c%"html"
  let c ← addChild d (elementNode name [] (some ns))
  modS fun s => { s with ctxNode := some c, body := c, stack := [s.doc, c] }

/-- parser/engine.py:1612-1639: the fragment is all text. -/
def textContext (C : Cfg) : Bool :=
  isHtmlNs C.ctxNs &&
  match C.ctxName with
  | none => false
  | some n => rcdata.contains n || plaintextTags.contains n || C.plan.dropContentTags.contains n || C.plan.rawtextAsTextTags.contains n ||
      C.plan.rawtextElementTags.contains n

/-- parser/engine.py:1612-1639: that text. -/
def parseTextContext : EM Unit :=
  iteQ (fun C _ => match C.ctxName with | some n => rcdata.contains n | none => false)
    (do
      let t ← orErr fun C => cleanText C true C.html
      let t ← q fun C _ => if C.ctxName = some c%"textarea" && t.head? = some '\n' then t.tail else t
      whQ (fun _ _ => !t.isEmpty) (do
        let d ← q fun _ s => s.doc
        appendNew d (textNode t)))
    (fun C => rawLiteral C.html C)

/-- parser/engine.py:1641-1692: the initial tree. -/
def setup : EM Unit :=
  iteQ (fun C _ => !C.fragment) buildShell
    (iteQ (fun C _ => isHtmlNs C.ctxNs && C.ctxName = some c%"html") setupHtml
      (whQ (fun C _ => match C.ctxName with | none => false | some n => !n.isEmpty && n ≠ c%"div") (fun C => setupContext (C.ctxName.getD []) C)))

/-! ### The last steps -/

/-- parser/engine.py:6571-6577 `_node_is_empty`. -/
def St.isEmptyNode (s : St) (i : Nat) : Bool := (s.n i).children.all fun c => s.isText c && (s.n c).data.isEmpty

/-- parser/engine.py:6533-6569 `_finish_document_shell`: after a frameset the empty body is removed. (The other branches are unreachable: 6545-6546
return, or the raw parse never sets `_eof_drop_mode`.) -/
def finishShell : EM Unit :=
  whQ (fun C s => !C.fragment && s.framesetSeen && s.html.isSome && s.head.isSome && (s.n s.body).kind = .element && s.isEmptyNode s.body && !s.bodyExplicit)
    (fun C s => removeChild (s.html.getD 0) s.body C s)

/-- What the scan of a `select` finds. -/
structure SelScan where
  pos : Nat := 0
  markers : List (Nat × Nat) := []
  spans : List (Nat × Nat × Nat) := []
  selected : Option Nat := none
  first : Option Nat := none

/-- `"k" in node.attrs`. -/
def hasAttr (n : ENode) (k : Str) : Bool := n.attrs.any fun p => p.1 = k

/-- parser/engine.py:6083-6102: what is noted about one node inside the `select`. -/
def scanNode (s : St) (multiple disabled datalist : Bool) (i : Nat) (a : SelScan) : SelScan :=
  let n := s.n i
  if n.kind ≠ .element then a
  else
    let a := if n.name = c%"selectedcontent" then { a with markers := a.markers ++ [(i, a.pos)] } else a
    if n.name = c%"option" && !datalist then
      { a with
        first := if a.first.isNone && !disabled && !hasAttr n c%"disabled" then some i else a.first
        selected := if hasAttr n c%"selected" && (!multiple || a.selected.isNone) then some i else a.selected }
    else a

/-- parser/engine.py:6075-6112: the walk over the `select` in document order, with the depth bounded by the heap. -/
def scanSelF (s : St) (select : Nat) (multiple : Bool) : Nat → Bool → Bool → Nat → SelScan → SelScan
  | 0, _, _, _, a => a
  | f + 1, disabled, datalist, i, a =>
    let n := s.n i
    let a := { a with pos := a.pos + 1 }
    let start := a.pos
    let a := if i = select then a else scanNode s multiple disabled datalist i a
    let dis := disabled || (n.name = c%"optgroup" && hasAttr n c%"disabled")
    let dat := datalist || n.name = c%"datalist"
    let a := n.children.foldl (fun a c => scanSelF s select multiple f dis dat c a) a
    if i ≠ select && n.kind = .element && n.name = c%"option" && !datalist then { a with spans := a.spans ++ [(i, start, a.pos)] } else a

/-- parser/engine.py:6133-6142 `_subtree_size`, with the depth bounded by the heap. -/
def sizeF (s : St) : Nat → List Nat → Nat
  | 0, _ => 0
  | f + 1, l => (l.map fun i => 1 + sizeF s f ((s.n i).children ++ (s.n i).content.toList)).sum

/-- Run an action for each element of a list. -/
def each (f : Nat → EM Unit) : List Nat → EM Unit
  | [] => pure ()
  | i :: l => do
    f i
    each f l

/-- dom/__init__.py:702-735 `_clone_subtree_iterative` together with parser/engine.py:6144-6160 `_record_projected_sanitization`: a deep copy of `i`, in which
the copies of dropped and unwrapped elements are recorded. (The order in which copies are made and recorded is not the one of the code; nothing depends
on it, see the comment on `unwrapAll`.) -/
def cloneF (dropped unwrapped : List Nat) : Nat → Nat → EM Nat
  | 0, i => do
    let n ← q fun _ s => s.n i
    alloc { n with children := [], parent := none, content := none }
  | f + 1, i => do
    let n ← q fun _ s => s.n i
    let c ← alloc { n with children := [], parent := none, content := none }
    iteQ (fun _ _ => dropped.contains i) (noteDrop c) (whQ (fun _ _ => unwrapped.contains i) (noteUnwrap c))
    each (fun k => do
      let d ← cloneF dropped unwrapped f k
      modS fun s => s.linkLast c d) n.children
    each (fun k => do
      let d ← cloneF dropped unwrapped f k
      modS fun s => (s.upd d fun n => { n with parent := some c }).upd c fun n => { n with content := some d }) n.content.toList
    pure c

/-- parser/engine.py:6121-6125: the marker is emptied. -/
def clearMarker (m : Nat) : EM Unit := modS fun s =>
  ((s.n m).children.foldl (fun s c => s.upd c fun n => { n with parent := none }) s).upd m fun n => { n with children := [] }

/-- parser/engine.py:6126-6131: copies of the children of the option go into the marker. -/
def fillMarker (dropped unwrapped : List Nat) (m option : Nat) : EM Unit := do
  let kids ← q fun _ s => (s.n option).children
  each (fun k => do
    let f ← q fun _ s => s.heap.length
    let d ← cloneF dropped unwrapped f k
    modS fun s => s.append m d) kids

/-- parser/engine.py:6117-6131: the loop over the markers; the result is the remaining budget. -/
def fillMarkers (dropped unwrapped : List Nat) (option : Option Nat) (span : Option (Nat × Nat)) (size : Nat) :
    List (Nat × Nat) → Nat → EM Nat
  | [], r => pure r
  | (m, p) :: l, r =>
    if (match span with | some (a, b) => a < p && p ≤ b | none => false) then fillMarkers dropped unwrapped option span size l r
    else do
      clearMarker m
      match option with
      | none => fillMarkers dropped unwrapped option span size l r
      | some o =>
        if size ≤ r then do
          fillMarker dropped unwrapped m o
          fillMarkers dropped unwrapped option span size l (r - size)
        else fillMarkers dropped unwrapped option span size l r

/-- parser/engine.py:6066-6130 `_project_select_selectedcontent`. -/
def projectSelect (dropped unwrapped : List Nat) (select r : Nat) : EM Nat := do
  let s ← getS
  let a := scanSelF s select (hasAttr (s.n select) c%"multiple") (s.heap.length + 1) false false select {}
  let option := a.selected.orElse fun _ => a.first
  let size := match option with | some o => sizeF s (s.heap.length + 1) (s.n o).children | none => 0
  let span := option.bind fun o => a.spans.lookup o
  fillMarkers dropped unwrapped option span size a.markers r

/-- parser/engine.py:6050-6064 `_project_selectedcontent`: the loop. -/
def projectLoop (dropped unwrapped : List Nat) : Nat → List Nat → Nat → EM Unit
  | 0, _, _ => pure ()
  | _ + 1, [], _ => pure ()
  | f + 1, i :: l, r => do
    let n ← q fun _ s => s.n i
    if n.kind ≠ .element then projectLoop dropped unwrapped f l r
    else do
      let r ← iteQ (fun _ _ => n.name = c%"select") (projectSelect dropped unwrapped i r) (pure r)
      let kids ← q fun _ s => (s.n i).children
      projectLoop dropped unwrapped f (kids ++ l) r

/-- parser/engine.py:6050-6064 `_project_selectedcontent`. Every node is visited once, and at most as many are made as the input is long. -/
def project : EM Unit := do
  let C ← cfg
  let s ← getS
  projectLoop s.toDrop s.toUnwrap (s.heap.length + C.html.length + 1) (s.n s.doc).children.reverse C.html.length

/-- parser/engine.py:6043-6044 with 6595-6598 `_remove_child`: `list.remove` raises if the node is not there. -/
def dropOne (i : Nat) : EM Unit := do
  match ← q fun _ s => (s.n i).parent with
  | none => pure ()
  | some p => iteQ (fun _ s => (s.n p).children.contains i) (removeChild p i) (noteErr true)

/-- parser/engine.py:6042-6048 `_drop_recorded_nodes`. -/
def dropAll : EM Unit := do
  let l ← q fun _ s => s.toDrop.reverse
  each dropOne l

/-- Replace one child by others. -/
def St.splice (s : St) (p c : Nat) (l : List Nat) : St :=
  s.upd p fun n => { n with children := n.children.flatMap fun x => if x = c then l else [x] }

/-- `for child in l: child.parent = p`. -/
def St.setParents (s : St) (l : List Nat) (p : Nat) : St := l.foldl (fun s c => s.upd c fun n => { n with parent := some p }) s

/-- parser/engine.py:6162-6175 `_unwrap_node`, for a node with a parent. -/
def unwrapOne (i : Nat) : EM Unit := do
  match ← q fun _ s => (s.n i).parent with
  | none => pure ()
  | some p =>
    iteQ (fun _ s => (s.n p).children.contains i)
      (modS fun s =>
        let moved := (s.n i).children
        (((s.upd i fun n => { n with children := [] }).setParents moved p).splice p i moved).upd i fun n => { n with parent := none })
      (noteErr true)

/-- parser/engine.py:5979-6011 `_unwrap_recorded_nodes`. Simplification: from 32 recorded nodes on the code replaces the nodes in one batch
(5987-6012, 6014-6039 `_expanded_children`); here they are unwrapped one by one. `Model/EngBatch.lean` has the batch, and C109 compares the two. -/
def unwrapAll : EM Unit := do
  let l ← q fun _ s => s.toUnwrap.reverse
  each unwrapOne l

/-- parser/engine.py:1865-1878 `_finish_fragment_context`. -/
def finishContext : EM Unit := fun C s =>
  match s.ctxNode with
  | none => ((), s)
  | some c =>
    if (s.n s.doc).children.contains c then
      let moved := (s.n c).children
      ((), (((s.setParents moved s.doc).splice s.doc c moved).upd c fun n => { n with children := [] }).upd c fun n => { n with parent := none })
    else ((), s)

/-- parser/engine.py:1694-1703: after the input. -/
def finish : EM Unit := do
  finishShell
  whQ (fun _ s => s.hasSelected) project
  dropAll
  unwrapAll
  finishContext

/-- parser/engine.py:1603-1703 `parse`. -/
def parse : EM Unit := do
  buildRoot
  iteQ (fun C _ => C.fragment && textContext C) parseTextContext (do
    setup
    parseRange
    finish)

/-- parser/engine.py:1232-1330 `__init__`: the initial state. -/
def init (C : Cfg) : St := { quirks := if C.fragment then .noQuirks else .unset }

/-- The state at the end of a parse. -/
def run (C : Cfg) : St := (parse C (init C)).2

/-! ### The result as a tree -/

/-- The node with this number as a tree, cut at some depth. -/
def treeF (s : St) : Nat → Nat → Node
  | 0, _ => .text []
  | f + 1, i =>
    let n := s.n i
    let kids := n.children.map (treeF s f)
    match n.kind with
    | .text => .text n.data
    | .comment => .comment n.data
    | .pi => .pi n.data
    | .plain => .doctype (n.doctype.1.getD []) n.doctype.2.1 n.doctype.2.2
    | .document => .doc kids
    | .fragment => .doc kids
    | .element => .elem n.name n.ns n.attrs kids false []
    | .template => .elem n.name n.ns n.attrs kids n.content.isSome (match n.content with | some c => ((s.n c).children.map (treeF s f)) | none => [])

/-- The result of a parse. -/
def result (C : Cfg) : Node := treeF (run C) ((run C).heap.length + 1) (run C).doc

/-- parser/__init__.py:176-177: one byte order mark at the start is dropped. -/
def dropBom (html : Str) : Str :=
  match html with
  | c :: l => if c = '\uFEFF' then l else html
  | [] => []

/-- parser/__init__.py:107-110, 176-202 `JustHTML(html)` and `JustHTML(html, fragment=True)`, or `fragment_context=FragmentContext(ctx)`, with the
default policy. -/
def safeCfg (E : UrlEnv) (T : EntTables) (fragment : Bool) (html : Str) (ctx : Str := c%"div") (ctxNs : Option Str := none) (scripting : Bool := true) : Cfg :=
  { E := E, T := T, html := dropBom html, fragment := fragment, ctxName := if fragment then some ctx else none,
    ctxNs := if fragment then ctxNs else none, plan := defaultPlan E.U fragment scripting }

/-- The same with `sanitize=False`. -/
def rawCfg (E : UrlEnv) (T : EntTables) (fragment : Bool) (html : Str) (ctx : Str := c%"div") (ctxNs : Option Str := none) (scripting : Bool := true) : Cfg :=
  { E := E, T := T, html := dropBom html, fragment := fragment, ctxName := if fragment then some ctx else none,
    ctxNs := if fragment then ctxNs else none, plan := rawPlan E.U scripting }

end JH.Eng
