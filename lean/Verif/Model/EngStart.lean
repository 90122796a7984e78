import Verif.Model.EngEnd

/-! Model of the start tags in /repo/src/justhtml/parser/engine.py. Like an end tag, a start tag is handled by a chain of tests; a test that returns
answers with the text after the tag. -/
namespace JH.Eng

/-- A chain of tests: the first answer is the result. -/
def chainR : List (EM (Option Str)) → EM (Option Str)
  | [] => pure none
  | m :: l => do
    match ← m with
    | some r => pure (some r)
    | none => chainR l

/-- `if c: m; return pos`. -/
def retIf (pos : Str) (c : Cfg → St → Bool) (m : EM Unit) : EM (Option Str) :=
  iteQ c (do
      m
      pure (some pos))
    (pure none)

/-- `if c: return m`. -/
def retWith (c : Cfg → St → Bool) (m : EM Str) : EM (Option Str) :=
  iteQ c (do
      let r ← m
      pure (some r))
    (pure none)

/-- `if c: m`, and go on. -/
def goIf (c : Cfg → St → Bool) (m : EM Unit) : EM (Option Str) := do
  whQ c m
  pure none

/-- `if c and m: return pos`. -/
def retOk (pos : Str) (c : Cfg → St → Bool) (m : EM Bool) : EM (Option Str) :=
  iteQ c (do
      let b ← m
      pure (if b then some pos else none))
    (pure none)

/-- A flag of the action, `False` for an unknown tag (parser/engine.py:436-446 `_UNKNOWN_TAG_ACTION`). -/
def flag (a : Option TagAction) (f : TagAction → Bool) : Bool := (a.map f).getD false

/-- `stack._p_count`. -/
def St.pCount (s : St) : Nat := (s.stack.filter fun i => (s.n i).name = c%"p").length

/-- `for attr_name, attr_value in attrs.items(): node.attrs.setdefault(attr_name, attr_value)`. -/
def mergeAttrs (node : Nat) (attrs : Attrs) : EM Unit := modS fun s =>
  s.upd node fun n => { n with attrs := attrs.foldl (fun acc p => if acc.any (fun x => x.1 = p.1) then acc else acc ++ [p]) n.attrs }

/-- parser/engine.py:5974-5977 `_should_insert_unwrapped_element`. -/
def insertsUnwrapped (name : Str) (a : Option TagAction) : Bool :=
  !unwrapSkip.contains name && !voids.contains name && !flag a (·.headContent)

/-- The entry of a new formatting element (parser/engine.py:5588-5594). -/
def addEntry (name : Str) (sig : Attrs) (node : Nat) : EM Unit := modS fun s =>
  { s with
    fmt := s.fmt ++ [some { eid := s.fmtNext, name := name, attrs := (s.n node).attrs, node := node, sig := sig, active := true }]
    fmtNext := s.fmtNext + 1 }

/-- parser/engine.py:5553-5564: an earlier `a` or `nobr` is closed. -/
def closeEarlier (name : Str) : EM Unit := do
  adoption name
  removeFmtByName name
  removeOpenByName name

/-- The element of a formatting start tag. -/
def formattingElement (name : Str) (attrs : Attrs) (compiled : Bool) : EM Nat := do
  let p ← q fun _ s => s.curParent
  if compiled then do
    let node ← insertCompiled name attrs p
    whQ (fun C _ => !C.plan.allowedTags.contains name) (noteUnwrap node)
    pure node
  else insertEl name attrs false p

/-- parser/engine.py:5535-5598 `_parse_formatting_start` (the shortcut in 3449-3464 does the same in its special case). -/
def formattingStart (name : Str) (attrs : Attrs) (compiled : Bool) : EM Unit := do
  compactFmt
  whQ (fun _ s => (name = c%"a" && (s.fmtFind c%"a").isSome) || (name = c%"nobr" && (s.findOpen c%"nobr").isSome)) (closeEarlier name)
  reconIfDirty
  match ← q fun _ s => s.fmtDuplicate name attrs with
  | none => pure ()
  | some e => retire e.eid
  let node ← formattingElement name attrs compiled
  addEntry name attrs node

/-- parser/engine.py:3497-3505 (and 4037-4045): a `table` in a table closes the open one. -/
def nestedTable (C : Cfg) (s : St) : Bool :=
  (s.findOpen c%"table").isSome && (s.inScope C.E.U c%"td" tableScope).isNone && (s.inScope C.E.U c%"th" tableScope).isNone &&
    (s.inScope C.E.U c%"caption" tableScope).isNone

/-- `del self._stack[table_idx:]`. -/
def closeTable : EM Unit := do
  match ← q fun _ s => s.findOpen c%"table" with
  | none => pure ()
  | some i => cutAt i

/-- parser/engine.py:3511-3525 (and 4055-4070): does this parent take the table part? -/
def tableParent (general : Bool) (name : Str) (a : Option TagAction) (pn : Str) : Bool :=
  if name = c%"caption" then pn = c%"table"
  else if name = c%"col" || name = c%"colgroup" then pn = c%"table" || (general && name = c%"col" && pn = c%"colgroup")
  else if flag a (·.tableSection) then pn = c%"table"
  else if name = c%"tr" then tableSections.contains pn
  else pn = c%"tr"

/-- Is this a start tag of a table part? -/
def isTablePart (name : Str) (a : Option TagAction) : Bool :=
  flag a (·.tableSection) || flag a (·.tableCell) || [c%"caption", c%"col", c%"colgroup", c%"tr"].contains name

/-- parser/engine.py:3362-3369 (and 3746-3753): framesets are no longer possible. -/
def blockFrameset (U : Uni) (a : Option TagAction) (attrs : Attrs) : EM Unit :=
  whQ (fun _ _ => flag a (fun a => a.name ≠ c%"input" || !hiddenInput U a.name attrs)) (modS fun s => { s with framesetBlocked := true })

/-! ### The general function -/

/-- The facts about a start tag that the tests use. `foreign` is `in_foreign_context`, `ht` is `html_text_parsing`. -/
structure Tag where
  name : Str
  a : Option TagAction
  attrs : Attrs
  sc : Bool
  pos : Str
  allowed : Bool
  foreign : Bool
  ht : Bool := true

/-- Insert the element under the current parent. -/
def Tag.insert (t : Tag) : EM Unit := insertHere' t.name t.attrs t.sc

/-- Insert the element if it is allowed. -/
def Tag.insertAllowed (t : Tag) : EM Unit := whQ (fun _ _ => t.allowed) t.insert

/-- parser/engine.py:3627-3637: column groups. -/
def startColgroup (t : Tag) : EM Unit :=
  if t.name = c%"colgroup" then do
    whQ (fun _ s => 1 < s.stack.length && s.topName = c%"colgroup") (modS St.pop)
    setColgroup true
  else whQ (fun _ s => s.inColgroup && t.name ≠ c%"col" && t.name ≠ c%"template") (do
    setColgroup false
    whQ (fun _ s => 1 < s.stack.length && s.topName = c%"colgroup") (modS St.pop))

/-- parser/engine.py:3638-3648: start tags in a head `noscript`. -/
def startNoscript (t : Tag) : EM (Option Str) :=
  iteQ (fun _ s => s.inNoscript)
    (if t.name = c%"head" || t.name = c%"noscript" then pure (some t.pos)
     else if !noscriptAllowed.contains t.name && t.name ≠ c%"html" then do
      iteQ (fun _ s => flag t.a (·.headContent) && s.head.isSome)
        (do
          setNoscript false
          whQ (fun _ s => s.topName = c%"noscript") (modS St.pop))
        leaveNoscript
      pure none
     else pure none)
    (pure none)

/-- parser/engine.py:3651-3662: `<html>`. -/
def startHtml (t : Tag) : EM Unit := do
  setColgroup false
  whQ (fun _ s => s.framesetSeen) (setAfter .html)
  modS fun s => { s with explicitHtml := true }
  match ← q fun _ s => s.html with
  | none => pure ()
  | some h => mergeAttrs h t.attrs

/-- parser/engine.py:3663-3675: `<head>`. -/
def startHead (t : Tag) (merge : Bool) : EM Unit := do
  setColgroup false
  modS fun s => { s with explicitHead := true }
  iteQ (fun _ s => s.bodySeen || s.bodyHasContent) (pure ()) (do
    match ← q fun _ s => s.head with
    | none => pure ()
    | some h => do
      if merge then mergeAttrs h t.attrs else pure ()
      stackToHead
      modS fun s => { s with afterHead := false })

/-- parser/engine.py:3676-3693: `<body>`. -/
def startBody (t : Tag) : EM Unit := do
  setColgroup false
  iteQ (fun _ s => s.framesetSeen) (pure ()) (do
    let b ← q fun _ s => s.body
    whQ (fun _ s => (s.n s.body).kind = .element) (mergeAttrs b t.attrs)
    iteQ (fun _ s => s.bodyExplicit) (pure ()) (do
      modS fun s => { s with bodyExplicit := true }
      iteQ (fun _ s => s.bodySeen) (pure ()) (do
        modS fun s => { s with bodySeen := true }
        stackToBody
        modS fun s => { s with afterHead := false })))

/-- `not self._fragment and not in_template_content and not in_foreign_context`. -/
def inDoc (t : Tag) (C : Cfg) (s : St) : Bool := !C.fragment && s.tmodes.isEmpty && !t.foreign

/-- parser/engine.py:3694-3717: a template or other content before the body. -/
def startBeforeBody (t : Tag) : EM Unit := do
  whQ (fun _ s => t.name = c%"template" && !s.bodyExplicit && !s.bodySeen && !s.bodyHasContent && s.head.isSome) (do
    stackToHead
    modS fun s => { s with explicitHead := true })
  whQ (fun _ s => t.name ≠ c%"template" && !s.bodySeen && !flag t.a (·.headContent)) (modS fun s => { s with bodySeen := true })

/-- parser/engine.py:3730-3759: start tags after the head. -/
def startAfterHead (t : Tag) : EM Unit :=
  iteQ (fun _ s => t.allowed && flag t.a (·.headContent) && t.name ≠ c%"noscript" && s.head.isSome && !s.inNoscript && !s.bodySeen && !s.bodyHasContent)
    (do
      stackToHead
      modS fun s => { s with headReentry := true })
    toBody

/-- parser/engine.py:3612-3759: the tests before `html_text_parsing` is known. -/
def startTests1 (t : Tag) : List (EM (Option Str)) :=
  [retIf t.pos (fun C _ => C.plan.rawMode && t.foreign && (t.name = c%"head" || t.name = c%"body")) (do
     let _ ← nsForStart t.name t.attrs
     let b ← q fun _ s => s.body
     whQ (fun _ s => t.name = c%"body" && (s.n s.body).kind = .element) (mergeAttrs b t.attrs)),
   goIf (fun C s => !C.fragment && s.after ≠ .no && t.name ≠ c%"html" && !s.framesetSeen) backToBody,
   retIf t.pos (fun C s => C.plan.rawMode && C.fragment && t.name = c%"html" && s.tmodes.isEmpty) (pure ()),
   goIf (fun _ s => s.tmodes.isEmpty && !t.foreign) (startColgroup t),
   startNoscript t,
   retIf t.pos (fun C s => inDoc t C s && t.name = c%"html") (startHtml t),
   retIf t.pos (fun C s => inDoc t C s && t.name = c%"head") (startHead t true),
   retIf t.pos (fun C s => inDoc t C s && t.name = c%"body") (startBody t),
   goIf (inDoc t) (startBeforeBody t),
   goIf (fun C s => inDoc t C s && s.head = some s.top && !flag t.a (·.headContent)) toBody,
   goIf (fun C s => inDoc t C s && s.html = some s.top && s.afterHead && t.name ≠ c%"body" && t.name ≠ c%"template") (startAfterHead t),
   goIf (fun C s => s.tmodes.isEmpty && !C.fragment && !s.framesetSeen && flag t.a (·.blocksFrameset)) (do
     let U ← q fun C _ => C.E.U
     blockFrameset U t.a t.attrs)]

/-- parser/engine.py:3802-3817: start tags in a frameset. -/
def startInFrameset (t : Tag) : EM (Option Str) :=
  iteQ (fun _ s => s.framesetSeen && !s.bodyExplicit)
    (if t.name = c%"noframes" then do
      let r ← rawtextElement t.name t.attrs t.sc t.pos
      pure (some r)
     else do
      whQ (fun _ s => t.ht && (t.name = c%"frame" || t.name = c%"frameset") && !(t.name = c%"frameset" && s.after = .html) &&
        (s.findOpen c%"frameset").isSome) t.insertAllowed
      pure (some t.pos))
    (pure none)

/-- parser/engine.py:3849-3864: `<hr>` in a `select`. -/
def startHrInSelect (t : Tag) : EM Unit := do
  let i ← q fun _ s => (s.findOpenHtml c%"select").getD 0
  whQ (fun _ s => i + 1 < s.stack.length && s.topName = c%"option") (modS St.pop)
  whQ (fun _ s => i + 1 < s.stack.length && s.topName = c%"optgroup") (modS St.pop)
  closeBefore' c%"p" pScope
  t.insert

/-- parser/engine.py:3866-3893: `<form>`. -/
def startForm (t : Tag) : EM Unit :=
  whQ (fun _ s => s.form.isNone) (do
    repairStack t.name
    let node ← insertHere t.name t.attrs t.sc
    modS fun s => { s with form := some node }
    whQ (fun C s => ((match (s.n node).parent with | none => false | some p => fosterTargets.contains (s.n p).name) || nestedTable C s) && s.top = node)
      (modS St.pop))

/-- parser/engine.py:3900-3902 (and 3404-3406): dropped raw text before the body belongs to the head. -/
def dropRawtext (t : Tag) : EM Str := do
  whQ (rawHeadParent t.name) stackToHead
  skipRawtext t.name t.pos

/-- parser/engine.py:3905-3923: `<noscript>` in the head. -/
def startNoscriptHead (t : Tag) : EM Unit := do
  stackToHead
  let h ← q fun _ s => s.head.getD 0
  whQ (fun C _ => C.plan.rawMode) (do let _ ← insertEl t.name t.attrs t.sc h)
  setNoscript true

/-- parser/engine.py:3947-3956: an open `button` is closed. -/
def closeButton : EM Unit := do
  impliedEnds none
  closeBefore' c%"button" tplScope

/-- parser/engine.py:3978-4014: a table part after foreign content whose elements were all left. -/
def cutForeign : EM Unit := do
  markDirty
  iteQ (fun C s => !C.fragment && s.html.isSome) stackToHtml
    (modS fun s => match (s.stack.drop 1).findIdx? (fun i => !openHtml (s.n i).ns) with
      | none => s
      | some k => s.cut (k + 1))

/-- parser/engine.py:4016-4022: ruby. -/
def startRuby (t : Tag) : EM Unit :=
  whQ (fun _ s => t.ht && (s.inTemplateScope c%"ruby").isSome)
    (if t.name = c%"rb" || t.name = c%"rtc" then
      whQ (fun _ s => [c%"rb", c%"rp", c%"rt", c%"rtc"].contains s.topName) (impliedEnds none)
     else if t.name = c%"rp" || t.name = c%"rt" then impliedEnds (some c%"rtc")
     else pure ())

/-- parser/engine.py:4024-4039: does the element belong into the head? -/
def startInHead (t : Tag) (C : Cfg) (s : St) : Bool :=
  t.allowed && flag t.a (·.headContent) && !C.fragment && s.head.isSome && s.tmodes.isEmpty && !s.inNoscript && !s.bodySeen && !s.bodyHasContent

/-- parser/engine.py:4072-4079: are the formatting elements reconstructed first? -/
def reconBefore (t : Tag) : Bool :=
  !tableStructure.contains t.name && !inlineHeadVoid.contains t.name && ![c%"param", c%"source", c%"track"].contains t.name &&
    !rubyTags.contains t.name && t.name ≠ c%"template" && !flag t.a (·.pClosing)

/-- `if self._active_formatting_dirty: self._reconstruct_active_formatting(); parent = self._current_parent()`. -/
def reconParent (c : Cfg → St → Bool) (parent : Nat) : EM Nat :=
  iteQ (fun C s => s.fmtDirty && c C s)
    (do
      reconstruct
      q fun _ s => s.curParent)
    (pure parent)

/-- parser/engine.py:4081-4094: the element of a tag that is not allowed. -/
def startUnallowed (t : Tag) (parent : Nat) : EM Unit := do
  whQ (fun _ _ => flag t.a (·.preLinefeed)) (modS fun s => { s with ignoreLf := true })
  if !t.ht || insertsUnwrapped t.name t.a then do
    let parent ← reconParent (fun _ _ => true) parent
    let _ ← insertEl t.name t.attrs t.sc parent
  else whQ (fun _ _ => t.name = c%"menuitem") reconIfDirty

/-- parser/engine.py:4096-4119: the element of an allowed tag. -/
def startAllowed (t : Tag) (parent : Nat) : EM Unit := do
  let parent ← reconParent (fun C s => fosterTargets.contains (s.n parent).name && !C.plan.tableAllowedChildren.contains t.name && !flag t.a (·.pClosing))
    parent
  let _ ← insertEl t.name t.attrs t.sc parent
  whQ (fun _ s => headOnlyVoid.contains t.name && s.head = some parent && 1 < s.stack.length && s.topName = t.name) (modS St.pop)
  whQ (fun _ s => s.inNoscript && noscriptVoid.contains t.name && 1 < s.stack.length && s.topName = t.name) (modS St.pop)
  whQ (fun _ _ => flag t.a (·.preLinefeed)) (modS fun s => { s with ignoreLf := true })
  finishReentry

/-- parser/engine.py:4024-4045: where the element goes. -/
def startParent (t : Tag) : EM Nat := do
  let inHead ← q (startInHead t)
  whQ (fun C _ => !inHead && (t.ht || breakoutStart C.E.U t.name t.attrs)) (repairStack t.name)
  let parent ← q fun _ s => if inHead then s.head.getD 0 else s.curParent
  iteQ (fun C s => s.tmodes.isEmpty && t.name = c%"table" && nestedTable C s)
    (do
      closeTable
      q fun _ s => s.curParent)
    (pure parent)

/-- parser/engine.py:4072-4119: after the table parts. -/
def startFinish (t : Tag) (parent : Nat) : EM Unit := do
  let parent ← reconParent (fun _ _ => t.ht && reconBefore t) parent
  if t.allowed then startAllowed t parent else startUnallowed t parent

/-- parser/engine.py:4024-4119: the general rule. -/
def startGeneral (t : Tag) : EM Unit := do
  let parent ← startParent t
  iteQ (fun _ s => t.ht && s.tmodes.isEmpty && isTablePart t.name t.a)
    (do
      repairTable t.name
      let parent ← q fun _ s => s.curParent
      whQ (fun _ s => tableParent true t.name t.a (s.n parent).name) (startFinish t parent))
    (startFinish t parent)

/-- parser/engine.py:3764-4119: the tests after `html_text_parsing` is known. -/
def startTests2 (t : Tag) : List (EM (Option Str)) :=
  [retIf t.pos (fun C _ => t.ht && C.ctxName = some c%"select" && t.name = c%"input") (pure ()),
   retIf t.pos (fun C _ => t.ht && C.ctxName = some c%"frameset" && t.name = c%"frame") t.insertAllowed,
   retIf t.pos (fun C _ => C.fragment && !isHtmlNs C.ctxNs && [c%"html", c%"head", c%"body", c%"frameset"].contains t.name) (pure ()),
   retOk t.pos (fun _ _ => t.ht && t.name = c%"frameset") (do
     let b ← acceptFragmentFrameset
     whQ (fun _ _ => b) t.insertAllowed
     pure b),
   retOk t.pos (fun _ s => t.ht && s.tmodes.isEmpty && t.name = c%"frameset") (do
     let b ← acceptFrameset
     whQ (fun _ _ => b) t.insertAllowed
     pure b),
   startInFrameset t,
   retIf t.pos (fun _ _ => t.ht && (t.name = c%"frame" || t.name = c%"frameset")) (pure ()),
   retIf t.pos (fun _ s => t.ht && bothLt (s.findOpenHtml c%"select") (s.findOpen c%"table") && (t.name = c%"input" || t.name = c%"select")) t.insert,
   retIf t.pos (fun _ s => t.ht && s.tmodes.isEmpty && t.name = c%"select" && (s.findOpenHtml c%"select").isSome) (closeHtmlUntil c%"select"),
   goIf (fun _ s => t.ht && s.tmodes.isEmpty && t.name = c%"input" && (s.findOpenHtml c%"select").isSome) (closeHtmlUntil c%"select"),
   goIf (fun _ s => s.tmode = some .initial && tplBodySwitch.contains t.name) (setTMode .body),
   retOk t.pos (fun _ s => t.ht && s.tmode = some .colgroup) (tplStart t.name t.attrs t.sc),
   retIf t.pos (fun _ s => t.ht && (s.findOpenHtml c%"select").isSome && t.name = c%"hr") (startHrInSelect t),
   retIf t.pos (fun _ s => t.ht && t.name = c%"form" && s.tmodes.isEmpty) (startForm t),
   retWith (fun C _ => C.plan.rawMode && t.ht && C.plan.rawtextElementTags.contains t.name) (rawtextElement t.name t.attrs t.sc t.pos),
   retWith (fun C _ => !C.plan.rawMode && flag t.a (·.dropContent)) (dropRawtext t),
   retWith (fun _ _ => flag t.a (·.rawtextAsText)) (rawtextAsText t.name t.pos),
   retIf t.pos (fun C s => t.name = c%"noscript" && !C.plan.rawtextElementTags.contains t.name && !C.fragment && s.head.isSome && s.tmodes.isEmpty &&
     (s.head = some s.top || (!s.bodyExplicit && !s.bodySeen && !s.bodyHasContent))) (startNoscriptHead t),
   retWith (fun _ _ => t.ht && flag t.a (·.rcdata)) (rcdataElement t.name t.attrs t.pos),
   retWith (fun C _ => t.ht && flag t.a (·.plaintext) && C.plan.rawMode) (plaintextElement t.name t.attrs t.sc t.pos),
   retWith (fun _ _ => t.ht && flag t.a (·.plaintext)) (plaintextAsText t.pos),
   retOk t.pos (fun C _ => t.ht && C.ctxName.isSome) (fragmentStart t.name t.attrs t.sc),
   retIf t.pos (fun _ _ => t.name = c%"template" && !t.allowed && t.ht) startPoTemplate,
   retOk t.pos (fun _ s => t.ht && !s.tmodes.isEmpty) (tplStart t.name t.attrs t.sc),
   goIf (fun _ s => t.ht && t.name = c%"button" && (s.inTemplateScope c%"button").isSome) closeButton,
   retIf t.pos (fun _ _ => t.ht && t.name = c%"button" && !t.allowed) t.insert,
   retIf t.pos (fun C _ => isFmt t.a && (t.ht || breakoutStart C.E.U t.name t.attrs)) (formattingStart t.name t.attrs false),
   goIf (fun _ _ => t.ht && t.name = c%"menuitem") reconIfDirty,
   goIf (fun C s => C.plan.rawMode && (t.name = c%"option" || t.name = c%"optgroup") && (s.findOpen c%"select").isSome && 1 < s.stack.length &&
     s.topName = c%"p") popDirty,
   goIf (fun _ _ => t.ht && (t.name = c%"option" || t.name = c%"optgroup")) reconIfDirty,
   retIf t.pos (fun _ s => t.ht && [c%"td", c%"th", c%"tr"].contains t.name && (s.findOpen c%"table").isNone && openHtml (s.n s.top).ns &&
     (s.stack.tail.any fun i => !openHtml (s.n i).ns)) (do
       cutForeign
       t.insert),
   goIf (fun _ _ => true) (startRuby t),
   retIf t.pos (fun _ _ => true) (startGeneral t)]

/-- parser/engine.py:60 `_SERIALIZABLE_ATTR_NAME_RE`. -/
def plainAttrName (k : Str) : Bool := !k.isEmpty && k.all fun c => !(isHtmlSpace c || c = '/' || c = '>' || c = '=')

/-- parser/engine.py:3598-3607: attribute names that a raw parse leaves out. -/
def rawAttrs (C : Cfg) (attrs : Attrs) : Attrs :=
  if C.plan.rawMode && (C.html.contains '\r' || C.html.contains '\x0c' || C.html.contains '\x00') then
    attrs.filter fun p => p.1.head? = some '=' || plainAttrName p.1
  else attrs

/-- parser/engine.py:3568-3583: the name of the tag. -/
def generalName (C : Cfg) (raw : Str) : Str := nulFix (compiledName C raw)

/-- Run both lists of tests. -/
def startChain (t : Tag) : EM Str := do
  match ← chainR (startTests1 t) with
  | some r => pure r
  | none => do
    let ht ← q fun C s => usesHtmlText t.name C s
    let r ← chainR (startTests2 { t with ht := ht })
    pure (r.getD t.pos)

/-- parser/engine.py:3560-4119 `_parse_start_tag`; `s` is the text after `<`. -/
def startTag (s : Str) : EM Str := do
  let C ← cfg
  markInitial
  let foreign ← q fun _ s => !openHtml (s.n s.top).ns
  let name0 := generalName C (splitName s).1
  let name := if name0 = c%"image" && !foreign then c%"img" else name0
  let a := C.plan.action name
  let after := (splitName s).2
  let scan := if C.plan.rawMode || name = c%"math" || name = c%"svg" || foreign then allAttrs C after else actionAttrs C a after
  noteErr scan.err
  if !scan.ok then do
    whQ (fun C _ => C.plan.rawMode && C.spans) (appendText ('<' :: s))
    pure scan.rest
  else
    startChain { name := name, a := a, attrs := rawAttrs C scan.attrs, sc := scan.sc, pos := scan.rest,
                 allowed := C.plan.rawMode || flag a (·.allowed), foreign := foreign }

/-! ### The compiled function -/

/-- `self._mode_flags & _START_SPECIAL_MODE`. -/
def St.startSpecial (s : St) : Bool := s.mFrameset || s.mColgroup || s.mNoscript || s.mAfter || s.mParserTpl

/-- parser/engine.py:3259-3270: can the element be put under the current node at once? -/
def simpleStartNow (t : Tag) (C : Cfg) (s : St) : Bool :=
  flag t.a (·.simpleStart) && (!flag t.a (·.pClosing) || s.pCount = 0) && s.bodySeen && !C.fragment && !s.startSpecial && !slowStart.contains s.topName

/-- parser/engine.py:3271-3284: it is. -/
def simpleStart (t : Tag) : EM Unit := do
  let node ← alloc (elementNode t.name t.attrs (some c%"html"))
  modS fun s => s.linkLast s.top node
  whQ (fun _ _ => !flag t.a (·.void)) (push node)
  whQ (fun _ _ => flag t.a (·.preLinefeed)) (modS fun s => { s with ignoreLf := true })

/-- parser/engine.py:3286-3295: column groups. -/
def safeColgroup (t : Tag) : EM Unit :=
  if t.name = c%"colgroup" then do
    whQ (fun _ s => 1 < s.stack.length && s.topName = c%"colgroup") (modS St.pop)
    setColgroup true
  else whQ (fun _ s => s.inColgroup && t.name ≠ c%"col" && t.name ≠ c%"template") (setColgroup false)

/-- parser/engine.py:3296-3300: start tags in a head `noscript`. -/
def safeNoscript (t : Tag) : EM (Option Str) :=
  iteQ (fun _ s => s.inNoscript)
    (if t.name = c%"head" || t.name = c%"noscript" then pure (some t.pos)
     else do
      whQ (fun _ _ => !noscriptAllowed.contains t.name && t.name ≠ c%"html") leaveNoscript
      pure none)
    (pure none)

/-- `not self._fragment and not in_parser_only_template`. -/
def inSafeDoc (C : Cfg) (s : St) : Bool := !C.fragment && s.poDepth = 0

/-- parser/engine.py:3346-3371: start tags after the head. -/
def safeAfterHead (t : Tag) : EM Unit :=
  iteQ (fun _ s => flag t.a (·.allowed) && flag t.a (·.headContent) && s.head.isSome && !s.bodySeen && !s.bodyHasContent)
    (do
      stackToHead
      modS fun s => { s with afterHead := false })
    toBody

/-- parser/engine.py:3411-3419: `svg` and `math`: the subtree is skipped if it is plain, else parsed by the general function. (The default policies
allow neither, and an element that is not allowed has no attributes scanned, so `name_start` is still the start of the name.) -/
def dropSubtree (s : Str) (t : Tag) : EM Str :=
  if flag t.a (·.allowed) then startTag s
  else do
    match ← q fun C _ => skipSubtree C t.name t.pos with
    | none => startTag s
    | some (r, eof) => do
      whQ (fun _ _ => eof) (modS fun s => { s with eofDropped := true })
      pure r

/-- Insert an element that is not allowed (parser/engine.py:3453-3460, 3533-3537). -/
def insertRemoved (t : Tag) (compiled : Cfg → St → Bool) (parent : Nat) : EM Unit :=
  iteQ compiled
    (do
      let node ← insertCompiled t.name t.attrs parent
      noteUnwrap node)
    (do let _ ← insertEl t.name t.attrs t.sc parent)

/-- parser/engine.py:3450-3461: `<button>`. -/
def safeButton (t : Tag) : EM Unit := do
  whQ (fun _ s => (s.inTemplateScope c%"button").isSome) (closeBefore' c%"button" tplScope)
  let p ← q fun _ s => s.curParent
  insertRemoved t (fun _ s => isHtmlNs (s.n p).ns) p

/-- parser/engine.py:3478-3505: where the element goes. (3491-3495 spell out `_current_parent`.) -/
def safeParent (t : Tag) : EM Nat := do
  let inHead ← q fun C s => flag t.a (·.allowed) && flag t.a (·.headContent) && !C.fragment && s.head.isSome && !s.bodySeen && !s.bodyHasContent
  whQ (fun _ s => !inHead && (stackRepair.contains t.name || (flag t.a (·.pClosing) && s.pCount ≠ 0))) (repairStack t.name)
  let parent ← q fun _ s => if inHead then s.head.getD 0 else s.curParent
  iteQ (fun C s => s.poDepth = 0 && t.name = c%"table" && nestedTable C s)
    (do
      closeTable
      q fun _ s => s.curParent)
    (pure parent)

/-- parser/engine.py:3526-3542: the element of a tag that is not allowed. -/
def safeUnallowed (t : Tag) (parent : Nat) : EM Unit := do
  whQ (fun _ _ => flag t.a (·.preLinefeed)) (modS fun s => { s with ignoreLf := true })
  if insertsUnwrapped t.name t.a then do
    let parent ← reconParent (fun _ _ => true) parent
    insertRemoved t (fun _ s => isHtmlNs (s.n parent).ns && !markerTags.contains t.name) parent
  else whQ (fun _ _ => t.name = c%"menuitem") reconIfDirty

/-- parser/engine.py:3544-3558: the element of an allowed tag. -/
def safeAllowed (t : Tag) (parent : Nat) : EM Unit := do
  let parent ← reconParent (fun C s => fosterTargets.contains (s.n parent).name && !C.plan.tableAllowedChildren.contains t.name && !flag t.a (·.pClosing))
    parent
  let _ ← insertCompiled t.name t.attrs parent
  whQ (fun _ _ => flag t.a (·.tableCell) || markerTags.contains t.name) pushMarker
  whQ (fun _ _ => flag t.a (·.preLinefeed)) (modS fun s => { s with ignoreLf := true })

/-- parser/engine.py:3526-3558 -/
def safeFinish (t : Tag) (parent : Nat) : EM Unit := if flag t.a (·.allowed) then safeAllowed t parent else safeUnallowed t parent

/-- parser/engine.py:3478-3558: the general rule of the compiled function. -/
def safeGeneral (t : Tag) : EM Unit := do
  let parent ← safeParent t
  iteQ (fun _ s => s.poDepth = 0 && isTablePart t.name t.a)
    (do
      repairTable t.name
      let parent ← q fun _ s => s.curParent
      whQ (fun _ s => tableParent false t.name t.a (s.n parent).name) (safeFinish t parent))
    (safeFinish t parent)

/-- parser/engine.py:3259-3558: the tests of the compiled function; `s` is the text after `<`. -/
def safeTests (s : Str) (t : Tag) : List (EM (Option Str)) :=
  [retIf t.pos (simpleStartNow t) (simpleStart t),
   goIf (fun _ s => s.poDepth = 0) (safeColgroup t),
   safeNoscript t,
   retIf t.pos (fun C s => inSafeDoc C s && t.name = c%"html") (startHtml t),
   retIf t.pos (fun C s => inSafeDoc C s && t.name = c%"head") (startHead t false),
   retIf t.pos (fun C s => inSafeDoc C s && t.name = c%"body") (startBody t),
   goIf (fun C s => inSafeDoc C s && !s.bodySeen && !flag t.a (·.headContent)) (modS fun s => { s with bodySeen := true }),
   goIf (fun C s => inSafeDoc C s && s.head = some s.top && !flag t.a (·.headContent)) toBody,
   goIf (fun C s => inSafeDoc C s && s.html = some s.top && s.afterHead && t.name ≠ c%"body" && t.name ≠ c%"template") (safeAfterHead t),
   goIf (fun C s => inSafeDoc C s && !s.framesetSeen && flag t.a (·.blocksFrameset)) (do
     let U ← q fun C _ => C.E.U
     blockFrameset U t.a t.attrs),
   retOk t.pos (fun _ _ => t.name = c%"frameset") acceptFragmentFrameset,
   retOk t.pos (fun _ s => s.poDepth = 0 && t.name = c%"frameset") acceptFrameset,
   retWith (fun _ s => s.framesetSeen && !s.bodyExplicit && t.name = c%"noframes") (rawLiteralText t.name t.pos),
   retIf t.pos (fun _ s => s.framesetSeen && !s.bodyExplicit) (pure ()),
   retIf t.pos (fun _ _ => t.name = c%"frame") (pure ()),
   retIf t.pos (fun _ s => t.name = c%"select" && (s.findOpen c%"select").isSome) (closeUntil c%"select"),
   goIf (fun _ s => s.poDepth ≠ 0 && s.tmode = some .initial && tplBodySwitch.contains t.name) (setTMode .body),
   retOk t.pos (fun _ s => s.poDepth ≠ 0 && s.tmode = some .colgroup) (tplStart t.name t.attrs t.sc),
   retWith (fun _ _ => flag t.a (·.dropContent)) (dropRawtext t),
   retWith (fun _ _ => flag t.a (·.dropSubtree)) (dropSubtree s t),
   retWith (fun _ _ => flag t.a (·.rawtextAsText)) (rawtextAsText t.name t.pos),
   retIf t.pos (fun C s => t.name = c%"noscript" && !C.fragment && s.head.isSome && s.poDepth = 0 && s.head = some s.top) (setNoscript true),
   retWith (fun _ _ => flag t.a (·.rcdata)) (rcdataElement t.name t.attrs t.pos),
   retWith (fun _ _ => flag t.a (·.plaintext)) (plaintextAsText t.pos),
   retOk t.pos (fun C _ => C.ctxName.isSome) (fragmentStart t.name t.attrs t.sc),
   retIf t.pos (fun C _ => t.name = c%"template" && !C.plan.allowedTags.contains t.name) startPoTemplate,
   retOk t.pos (fun _ s => s.poDepth ≠ 0) (tplStart t.name t.attrs t.sc),
   retIf t.pos (fun C _ => t.name = c%"button" && !C.plan.allowedTags.contains t.name) (safeButton t),
   retIf t.pos (fun _ _ => isFmt t.a) (formattingStart t.name t.attrs true),
   retIf t.pos (fun _ _ => true) (safeGeneral t)]

/-- parser/engine.py:3128-3256: the attributes of a tag in a compiled parse. (The loop in 3141-3256 is a copy of `_parse_attrs_for_action`.) -/
def safeScan (C : Cfg) (a : Option TagAction) (after : Str) : AttrScan :=
  if after.head? = some '>' then ⟨[], false, after.tail, true, false⟩ else actionAttrs C a after

/-- parser/engine.py:3103-3558 `_parse_compiled_safe_start_tag`; `s` is the text after `<`. -/
def safeStartTag (s : Str) : EM Str := do
  let C ← cfg
  let name0 := compiledName C (splitName s).1
  let name := if name0 = c%"image" then c%"img" else name0
  let a := C.plan.action name
  iteQ (fun _ s => s.foreignSeen && !openHtml (s.n s.top).ns) (startTag s) (do
    markInitial
    let scan := safeScan C a (splitName s).2
    noteErr scan.err
    if !scan.ok then pure scan.rest
    else do
      let t : Tag := { name := name, a := a, attrs := scan.attrs, sc := scan.sc, pos := scan.rest, allowed := flag a (·.allowed), foreign := false }
      let r ← chainR (safeTests s t)
      pure (r.getD scan.rest))

end JH.Eng
