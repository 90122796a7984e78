import Verif.Model.EngTree

/-! Model of text, comments, processing instructions and doctypes in /repo/src/justhtml/parser/engine.py. -/
namespace JH.Eng

/-! ### Text -/

/-- `text.strip(_SPACE) == ""`. -/
def blank (t : Str) : Bool := t.all isHtmlSpace

/-- A character of `_SPACE + "\0"`. -/
def isSpaceNul (c : Char) : Bool := isHtmlSpace c || c = '\x00'

/-- parser/engine.py:2224-2236 `_clean_text` (without XML coercion); `none`: Python raised. -/
def cleanText (C : Cfg) (replaceNul : Bool) (raw : Str) : Option Str :=
  let t := newlines raw
  let t := replaceC '\x00' (if replaceNul then c%"\ufffd" else []) t
  (if t.contains '&' then decodeEntities C.E.U C.T false t else some t).map fun t => if C.plan.stripInvisible then stripInvisible t else t

/-- The cleaned text; an exception is recorded. -/
def orErr (f : Cfg → Option Str) : EM Str := fun C s => match f C with | some t => (t, s) | none => ([], { s with err := true })

/-- parser/engine.py:6686-6704 `_append_frameset_text`. -/
def framesetText (raw : Str) : EM Unit :=
  whQ (fun _ s => s.html.isSome) (do
    let t ← orErr fun C => if (newlines raw).contains '&' then decodeEntities C.E.U C.T false (newlines raw) else some (newlines raw)
    let t := t.filter isHtmlSpace
    whQ (fun _ _ => !t.isEmpty) (do
      let p ← q fun _ s => if s.parentName ≠ c%"frameset" then s.html.getD 0 else s.curParent
      appendNew p (textNode t)))

/-- The local variables of `_append_text`. -/
structure TextLoc where
  raw : Str
  parent : Nat
  isSpace : Option Bool
  pend : Nat

/-- `raw_is_space`, computed on the first use. -/
def TextLoc.space (l : TextLoc) : Bool := l.isSpace.getD (blank l.raw)

/-- parser/engine.py:2246-2263: text before anything else in the document; `none`: return. -/
def textInitial (raw : Str) : EM (Option Str) :=
  iteQ (fun _ s => s.quirks ≠ .unset) (pure (some raw)) (do
    let t ← orErr fun C => if raw.contains '&' then cleanText C false raw else some c%"x"
    if !t.isEmpty && t.all isSpaceNul then pure none
    else
      let raw := raw.dropWhile isSpaceNul
      if raw.isEmpty then pure none
      else do
        markInitial
        whQ (fun C _ => C.ctxName.isNone) (modS fun s => { s with bodySeen := true })
        pure (some raw))

/-- parser/engine.py:2264-2278: framesets and column groups; `true`: go on. -/
def textModes (raw : Str) : EM Bool :=
  iteQ (fun C s => s.framesetSeen && C.fragment) (pure false)
    (iteQ (fun _ s => s.framesetSeen && !s.bodyExplicit) (do
        framesetText raw
        pure false)
      (iteQ (fun C _ => C.ctxName = some c%"colgroup") (pure false)
        (iteQ (fun _ s => s.tmode = some .colgroup && !blank raw)
          (iteQ (fun _ s => 1 < s.stack.length && s.topName = c%"colgroup") (do
              modS St.pop
              setTMode .table
              pure true)
            (pure false))
          (pure true))))

/-- parser/engine.py:2285-2299: text in a column group. -/
def textColgroup (raw : Str) (pend : Nat) : EM TextLoc := do
  let parent ← q fun _ s => s.curParent
  iteQ (fun _ s => s.inColgroup && (s.n parent).name = c%"colgroup" && !blank raw)
    (do
      whQ (fun _ _ => !(raw.takeWhile isHtmlSpace).isEmpty) (appendNew parent (textNode (raw.takeWhile isHtmlSpace)))
      setColgroup false
      whQ (fun _ s => 1 < s.stack.length && s.top = parent) (modS St.pop)
      q fun _ s => ⟨raw.dropWhile isHtmlSpace, s.curParent, none, pend⟩)
    (pure ⟨raw, parent, none, pend⟩)

/-- parser/engine.py:2300-2313: reconstruct the active formatting elements. -/
def textRecon (l : TextLoc) : EM TextLoc :=
  iteQ (fun _ s => s.fmtDirty && (s.n l.parent).name ≠ c%"caption")
    (iteQ (fun _ s => fosterTargets.contains (s.n l.parent).name)
      (if blank l.raw then pure { l with isSpace := some true }
       else do
        reconstruct
        q fun _ s => { l with parent := s.curParent, isSpace := some false })
      (do
        reconstruct
        q fun _ s => { l with parent := s.curParent }))
    (pure l)

/-- `self._stack = [doc, html, body]; self._after_head = False; self._body_mode_seen = True`. -/
def toBody : EM Unit := do
  stackToBody
  modS fun s => { s with afterHead := false, bodySeen := true }

/-- parser/engine.py:2314-2341: text in the head. -/
def textHead (l : TextLoc) : EM TextLoc :=
  iteQ (fun C s => !C.fragment && s.head = some l.parent && s.tmodes.isEmpty && s.html.isSome)
    (do
      let cand ← orErr fun C => if l.raw.contains '&' && l.isSpace.isNone then cleanText C false l.raw else some l.raw
      let sp := l.isSpace.getD (blank cand)
      if sp then pure { l with isSpace := some true }
      else do
        let lead ← orErr fun C => cleanText C false (l.raw.takeWhile isHtmlSpace)
        whQ (fun _ _ => !(l.raw.takeWhile isHtmlSpace).isEmpty) (appendNew l.parent (textNode lead))
        toBody
        q fun _ s => { l with raw := l.raw.dropWhile isHtmlSpace, parent := s.body, isSpace := some false })
    (pure l)

/-- parser/engine.py:2342-2349: text after the head. -/
def textAfterHead (l : TextLoc) : EM TextLoc :=
  iteQ (fun C s => !C.fragment && s.html = some l.parent && s.afterHead)
    (if l.space then pure { l with isSpace := some true }
     else do
      toBody
      q fun _ s => { l with parent := s.body, isSpace := some false })
    (pure l)

/-- parser/engine.py:2350-2358: text after the body. -/
def textAfterBody (l : TextLoc) : EM TextLoc :=
  iteQ (fun C s => !C.fragment && s.after ≠ .no)
    (if l.space then pure { l with isSpace := some true }
     else do
      whQ (fun _ s => (s.findOpenHtml c%"body").isNone) stackToBody
      setAfter .no
      modS fun s => { s with bodySeen := true }
      q fun _ s => { l with parent := s.curParent, isSpace := some false })
    (pure l)

/-- parser/engine.py:2359-2375: white space at the start of the body is dropped; `none`: return. -/
def textBodyStart (l : TextLoc) : EM (Option TextLoc) :=
  iteQ (fun C s => !C.fragment && l.parent = s.body && !s.bodyExplicit && !s.bodySeen && !s.bodyHasContent)
    (do
      let t ← orErr fun C => if l.raw.contains '&' then cleanText C false l.raw else some c%"x"
      if !t.isEmpty && t.all isSpaceNul then pure none
      else if l.isSpace.getD (l.raw.all isSpaceNul) then pure none
      else pure (some { l with raw := l.raw.dropWhile isSpaceNul, isSpace := some false }))
    (pure (some l))

/-- parser/engine.py:2376-2386: text in a table after a column group. -/
def textTable (l : TextLoc) : EM TextLoc :=
  iteQ (fun _ s => s.inColgroup && (s.n l.parent).name = c%"table" && !blank l.raw)
    (do
      whQ (fun _ _ => !(l.raw.takeWhile isHtmlSpace).isEmpty) (appendNew l.parent (textNode (l.raw.takeWhile isHtmlSpace)))
      setColgroup false
      pure { l with raw := l.raw.dropWhile isHtmlSpace })
    (pure l)

/-- parser/engine.py:2387-2408: the characters that are inserted. -/
def textChars (l : TextLoc) : EM Str := do
  let s ← getS
  let t ← orErr fun C =>
    let t := newlines l.raw
    let n := s.n l.parent
    let t := replaceC '\x00' (if !isHtmlNs n.ns && !htmlPoint C.E.U n && !mathPoint n then c%"\ufffd" else []) t
    (if t.contains '&' then decodeEntities C.E.U C.T false t else some t).map fun t => if C.plan.stripInvisible then stripInvisible t else t
  iteQ (fun _ s => s.ignoreLf) (do
      modS fun s => { s with ignoreLf := false }
      pure (if t.head? = some '\n' then t.tail else t))
    (pure t)

/-- parser/engine.py:2436-2453: white space that precedes text in a table moves with it. Result: the text. -/
def pendingSpace (parent pend : Nat) (t : Str) : EM Str := fun _ s =>
  match (s.n parent).children.getLast? with
  | none => (t, s)
  | some l =>
    if pend ≠ 0 && s.isText l && blank (s.n l).data then
      let prev := (s.n l).data
      let rest := prev.take (prev.length - pend)
      (prev.drop (prev.length - pend) ++ t,
        if rest.isEmpty then s.upd parent fun n => { n with children := n.children.dropLast } else s.upd l fun n => { n with data := rest })
    else (t, s)

/-- parser/engine.py:2426-2469: put the text into the tree. -/
def textPlace (parent pend : Nat) (t : Str) : EM Unit := do
  let foster ← q fun _ s => fosterTargets.contains (s.n parent).name && openHtml (s.n parent).ns
  if foster && !blank t then do
    let t ← pendingSpace parent pend t
    match ← q fun C s => fosterFor parent none C s with
    | none => appendNew parent (textNode t)
    | some (g, i) => fun _ s => ((), (s.add (textNode t)).insertAt g i s.heap.length)
  else do
    appendNew parent (textNode t)
    if foster then modS fun s => { s with fosterWs := pend + t.length } else pure ()

/-- parser/engine.py:2409-2425: text in `noscript`, and white space between head and body. -/
def textInsert (l : TextLoc) : EM Unit := do
  let t ← textChars l
  let parent ← iteQ (fun _ s => s.inNoscript && !blank t) (do
      leaveNoscript
      q fun _ s => s.body)
    (pure l.parent)
  if t.isEmpty then pure ()
  else
    iteQ (fun C s => !C.fragment && s.html = some parent && s.afterHead && blank t)
      (fun _ s => ((), (s.add (textNode t)).insertAt parent ((indexOf? (s.n parent).children s.body).getD (s.n parent).children.length) s.heap.length))
      (textPlace parent l.pend t)

/-- parser/engine.py:2238-2469 `_append_text`. (`parent` is always `self._current_parent()`: 2279-2283 only avoid the call.) -/
def appendText (raw : Str) : EM Unit := do
  let pend ← q fun _ s => s.fosterWs
  modS fun s => { s with fosterWs := 0 }
  match ← textInitial raw with
  | none => pure ()
  | some raw => do
    let go ← textModes raw
    if go then do
      let l ← textColgroup raw pend
      let l ← textRecon l
      let l ← textHead l
      let l ← textAfterHead l
      let l ← textAfterBody l
      match ← textBodyStart l with
      | none => pure ()
      | some l => do
        let l ← textTable l
        textInsert l
    else pure ()

/-! ### Comments and other nodes -/

/-- parser/engine.py:2209-2222 `_find_comment_end`: the offset it returns. -/
def commentEnd : Str → Option Nat
  | '-' :: '-' :: r =>
    if startsWith c%">" r then some 0
    else if startsWith c%"!>" r || startsWith c%"->" r then some 1
    else (commentEnd r).map (· + 2)
  | _ :: r => (commentEnd r).map (· + 1)
  | [] => none

/-- parser/scanner.py:49-69 `ascii_rfind`: the offset of the last match. -/
def asciiRFind (needle : Str) : Str → Option Nat
  | [] => none
  | c :: s =>
    match asciiRFind needle s with
    | some i => some (i + 1)
    | none => if asciiStarts needle (c :: s) then some 0 else none

/-- parser/engine.py:1791-1800 (in `_append_misc_node`): is there text between the last `</html` or `</body` and this node? `before` is the input
up to the node. (1779-1789 `_last_close_tag_start` only caches the search.) -/
def trailingText (marker before : Str) : Bool :=
  match asciiRFind marker before with
  | none => false
  | some i =>
    match find? c%">" (before.drop i) with
    | none => false
    | some j =>
      let t := before.drop (i + j + 1)
      !t.contains '<' && !blank t

/-- `insert_at = next((i for i, child in enumerate(children) if child.name == "html"), len(children))`. -/
def St.rootIdx (s : St) : Nat :=
  ((s.n s.doc).children.findIdx? fun c => (s.n c).name = c%"html").getD (s.n s.doc).children.length

/-- parser/engine.py:1774-1782 `_insert_before_document_root` with a new node (the cached index is not modelled). -/
def insertBeforeRoot (n : ENode) : EM Unit := fun _ s => ((), (s.add n).link s.doc s.rootIdx s.heap.length)

/-- `not self._body_mode_seen and not self._body_has_content()`. -/
def St.bodyFresh (s : St) : Bool := !s.bodySeen && !s.bodyHasContent

/-- parser/engine.py:1802-1813: does the node go into the head? -/
def miscInHead (C : Cfg) (s : St) : Bool :=
  s.head = some s.curParent ||
  (!C.fragment && !s.afterHead && s.head.isSome && s.bodyFresh && (s.html = some s.curParent || s.curParent = s.body) &&
    ((s.n (s.head.getD 0)).children.any (fun c => (s.n c).kind = .template) ||
     (!s.explicitHead && s.curParent = s.body && !(s.n (s.head.getD 0)).children.isEmpty)))

/-- parser/engine.py:1822-1832: does the node go before the root? -/
def miscBeforeRoot (C : Cfg) (s : St) : Bool :=
  !C.fragment && (s.quirks = .unset || (!s.explicitHtml && !s.explicitHead && s.bodyFresh && s.curParent = s.body))

/-- parser/engine.py:1835-1842: does the node go before the body or the head? -/
def miscInHtml (C : Cfg) (s : St) : Bool :=
  !C.fragment && s.html.isSome && s.head.isSome && s.bodyFresh && (s.curParent = s.body || s.html = some s.curParent)

/-- parser/engine.py:1843-1861: insert before the anchor. -/
def insertInHtml (n : ENode) : EM Unit := fun _ s =>
  let h := s.html.getD 0
  let anchor := if s.afterHead || s.explicitHead then s.body else s.head.getD 0
  ((), (s.add n).link h ((indexOf? (s.n h).children anchor).getD (s.n h).children.length) s.heap.length)

/-- parser/engine.py:1795-1863 `_append_misc_node`. -/
def appendMisc (n : ENode) (before : Str) : EM Unit := do
  whQ (fun _ s => s.after ≠ .no && trailingText (if s.after = .html then c%"</html" else c%"</body") before) (do
    setAfter .no
    modS fun s => { s with bodySeen := true })
  iteQ miscInHead (do
      let h ← q fun _ s => s.head.getD 0
      appendNew h n)
    (iteQ (fun C s => !C.fragment && s.after = .html) (do
        let d ← q fun _ s => s.doc
        appendNew d n)
      (iteQ (fun C s => !C.fragment && s.after = .body && s.html.isSome) (do
          let h ← q fun _ s => s.html.getD 0
          appendNew h n)
        (iteQ miscBeforeRoot (insertBeforeRoot n)
          (iteQ miscInHtml (insertInHtml n)
            (do
              let p ← q fun _ s => s.curParent
              appendNew p n)))))

/-- parser/engine.py:1719-1728 `_append_comment` (without XML coercion). -/
def appendComment (data before : Str) : EM Unit :=
  appendMisc { kind := .comment, name := c%"#comment", data := nulFix (newlines data) } before

/-- parser/engine.py:1730-1736 `_append_processing_instruction`. -/
def appendPi (data before : Str) : EM Unit :=
  appendMisc { kind := .pi, name := c%"#processing-instruction", data := nulFix (newlines data) } before

/-- parser/engine.py:67 `_ASCII_LETTERS`. -/
def isAsciiLetter (c : Char) : Bool := ('a' ≤ c && c ≤ 'z') || ('A' ≤ c && c ≤ 'Z')

/-- parser/engine.py:377-378 `_is_processing_instruction_name_char`. -/
def isPiChar (c : Char) : Bool := c = '_' || c = '-' || isAsciiLetter c || ('0' ≤ c && c ≤ '9')

/-- `data.removesuffix("?")`. -/
def dropQuestion (s : Str) : Str := if s.getLast? = some '?' then s.dropLast else s

/-- parser/engine.py:1738-1772 `_processing_instruction_data`. -/
def piData (U : Uni) (content : Str) : Option Str :=
  match content with
  | [] => none
  | c :: r =>
    if !(c = '_' || isAsciiLetter c) then none
    else
      let target := c :: r.takeWhile isPiChar
      if startsWith c%"xml" (U.lower target) then none
      else
        match r.dropWhile isPiChar with
        | [] => some (target ++ c%" ")
        | d :: r' =>
          if d = '?' then some (target ++ c%" " ++ dropQuestion (d :: r'))
          else if isHtmlSpace d then some (target ++ c%" " ++ dropQuestion (lstripP isHtmlSpace r'))
          else none

/-! ### Doctypes -/

/-- One letter of a keyword under `re.IGNORECASE`. -/
def kwChar (k c : Char) : Bool :=
  lowerC c = k || (k = 'i' && (c = '\u0130' || c = '\u0131')) || (k = 's' && c = '\u017f')

/-- A keyword under `re.IGNORECASE` at the start of a text. -/
def kwStarts : Str → Str → Bool
  | [], _ => true
  | _ :: _, [] => false
  | k :: ks, c :: cs => kwChar k c && kwStarts ks cs

/-- `"([^"]*)"|'([^']*)'` at the start of a text: the content and the rest. -/
def quotedId : Str → Option (Str × Str)
  | c :: r => if c = '"' || c = '\'' then splitAt1 c r else none
  | [] => none

/-- parser/engine.py:61-65 `_DOCTYPE_RE` on the text after the name: the keyword, the two identifiers and the text after the match. -/
def doctypeIds (s : Str) : Option Str × Option Str × Option Str × Str :=
  let r := lstripP isHtmlSpace s
  if kwStarts c%"public" r || kwStarts c%"system" r then
    let kw := r.take 6
    let after := lstripP isHtmlSpace (r.drop 6)
    match quotedId after with
    | none => (some kw, none, none, after)
    | some (a, r1) =>
      match quotedId (lstripP isHtmlSpace r1) with
      | none => (some kw, some a, none, lstripP isHtmlSpace r1)
      | some (b, r2) => (some kw, some a, some b, r2)
  else (none, none, none, s)

/-- core/doctype.py:21-63 `doctype_error_and_quirks`: the mode. -/
def quirksOf (U : Uni) (name pid sid : Option Str) (force srcdoc : Bool) : Quirks :=
  let name := match name with | some [] => none | some n => some (U.lower n) | none => none
  let pub := match pid with | some [] => none | some p => some (U.lower p) | none => none
  let sys := match sid with | some [] => none | some p => some (U.lower p) | none => none
  let pre := fun (l : List Str) => match pub with | none => false | some p => l.any fun x => startsWith x p
  if force then .quirks
  else if srcdoc then .noQuirks
  else if name ≠ some c%"html" then .quirks
  else if (match pub with | some p => quirkyPublic.contains p | none => false) then .quirks
  else if (match sys with | some p => quirkySystem.contains p | none => false) then .quirks
  else if pre quirkyPrefixes then .quirks
  else if pre limitedPrefixes then .limited
  else if pre html4Prefixes then (if sys.isNone then .quirks else .limited)
  else .noQuirks

/-- parser/engine.py:2486-2541: the doctype of a declaration. Result: name, public and system identifier, and the mode. -/
def doctypeOf (C : Cfg) (raw : Str) : (Option Str × Option Str × Option Str) × Quirks :=
  let raw := nulFix (newlines raw)
  let s := lstripP isHtmlSpace raw
  let nameRaw := s.takeWhile fun c => !isHtmlSpace c && c ≠ '>'
  if nameRaw.isEmpty then ((none, none, none), quirksOf C.E.U none none none true C.iframeSrcdoc)
  else
    let name := C.E.U.lower nameRaw
    let ids := doctypeIds (s.drop nameRaw.length)
    let kind := ids.1.map C.E.U.lower
    let pid := if kind = some c%"public" then ids.2.1 else none
    let sid := if kind = some c%"public" then ids.2.2.1 else if kind = some c%"system" then ids.2.1 else none
    let bogus := ids.1.isNone && !blank ids.2.2.2
    ((some name, pid, sid), quirksOf C.E.U (some name) pid sid bogus C.iframeSrcdoc)

/-- parser/engine.py:2534-2541 `_prepend_doctype`. -/
def prependDoctype (d : Option Str × Option Str × Option Str) : EM Unit :=
  insertBeforeRoot { kind := .plain, name := c%"!doctype", doctype := d }

/-- parser/engine.py:2471-2532 `_parse_doctype`; `s` is the text after `<!doctype`. -/
def parseDoctype (s : Str) : EM Str := do
  whQ (fun C s => !C.fragment && !C.plan.dropDoctype && s.quirks = .unset && !s.explicitHtml && !s.bodyExplicit && !s.framesetBlocked &&
      !s.framesetSeen && !s.bodyHasContent) (do
    let d ← q fun C _ => doctypeOf C (s.takeWhile fun c => c ≠ '>')
    modS fun s => { s with quirks := d.2 }
    prependDoctype d.1)
  pure (s.dropWhile (fun c => c ≠ '>')).tail

end JH.Eng
