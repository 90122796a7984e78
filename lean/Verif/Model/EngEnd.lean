import Verif.Model.EngTemplate

/-! Model of the end tags in /repo/src/justhtml/parser/engine.py. An end tag is handled by a chain of tests; each either deals with the tag and returns,
or leaves it to the next one. -/
namespace JH.Eng

/-- A chain of tests: the first that answers `true` ends it. -/
def chain : List (EM Bool) → EM Unit
  | [] => pure ()
  | m :: l => do
    let done ← m
    if done then pure () else chain l

/-- `if c: m; return`. -/
def doneIf (c : Cfg → St → Bool) (m : EM Unit) : EM Bool :=
  iteQ c (do
      m
      pure true)
    (pure false)

/-- `if c: m`, and go on. -/
def stepIf (c : Cfg → St → Bool) (m : EM Unit) : EM Bool := do
  whQ c m
  pure false

/-- The text of the input before the suffix `s`. -/
def beforeSuffix (C : Cfg) (s : Str) : Str := C.html.take (C.html.length - s.length)

/-- Record that Python raised. -/
def noteErr (b : Bool) : EM Unit := if b then modS fun s => { s with err := true } else pure ()

/-- parser/engine.py:2559-2563 (and 3115-3120): the part of the input that is the name, and the rest. -/
def splitName : Str → Str × Str
  | [] => ([], [])
  | c :: r => (c :: r.takeWhile (fun x => !isTagStop x), r.dropWhile (fun x => !isTagStop x))

/-- parser/engine.py:2564-2571 (and 3121-3130): the folded name. -/
def compiledName (C : Cfg) (raw : Str) : Str := if (C.plan.action raw).isSome then raw else foldName C raw

/-- Everything up to the next `>` is skipped. -/
def skipGt (s : Str) : Str := (s.dropWhile (fun c => c ≠ '>')).tail

/-! ### Tests that both functions make -/

/-- parser/engine.py:2616-2636: `</html>` and `</body>` in a compiled document parse. -/
def endShell : EM Unit := do
  setColgroup false
  iteQ (fun _ s => (s.findOpen c%"table").isSome && s.parentName ≠ c%"body" && s.parentName ≠ c%"html") (pure ())
    (iteQ (fun _ s => s.parentName ≠ c%"body" && s.parentName ≠ c%"html" && (s.findOpen c%"body").isSome)
      (modS fun s => { s with afterHead := false, bodySeen := true })
      (do
        iteQ (fun _ s => s.framesetSeen && !s.bodyExplicit) stackToHtml stackToBody
        modS fun s => { s with afterHead := false, bodySeen := true }))

/-- parser/engine.py:2637-2643 (and 2896-2905): `</head>`. -/
def endHead : EM Unit := do
  setColgroup false
  iteQ (fun _ s => s.bodySeen && s.head ≠ some s.top) (pure ()) (do
    stackToHtml
    modS fun s => { s with afterHead := true })

/-- parser/engine.py:2644-2652 (and 2906-2914): `</colgroup>`. -/
def endColgroup : EM Unit := do
  setColgroup false
  whQ (fun _ s => 1 < s.stack.length && s.topName = c%"colgroup" && s.ctxNode ≠ some s.top) (modS St.pop)

/-- parser/engine.py:2653-2660 (and 2926-2932): the end tags of table parts close an open cell first. -/
def endClosesCell (name : Str) : EM Unit :=
  if name = c%"table" then do
    setColgroup false
    closeCell
  else whQ (fun C s => (name = c%"tr" || tableSections.contains name) && (s.inScope C.E.U name tableScope).isSome) closeCell

/-- parser/engine.py:2661-2664 (and 2933-2936): `</template>`. -/
def endTemplate : EM Unit := do
  let _ ← closeTemplate
  finishReentry

/-- parser/engine.py:2669-2675 (and 2972-2978): is the end tag ignored in the head? -/
def endInHead (name : Str) (C : Cfg) (s : St) : Bool :=
  !C.fragment && s.head.isSome && s.head = some s.top && ![c%"br", c%"body", c%"head", c%"html", c%"template"].contains name

/-- parser/engine.py:2676-2685 (and 2979-2988): does `</br>` leave the head? -/
def brLeavesHead (name : Str) (C : Cfg) (s : St) : Bool :=
  !C.fragment && name = c%"br" && s.head.isSome && s.head = some s.top && s.html.isSome

/-- parser/engine.py:2692 (and 3003): `</br>` in a head `noscript`. -/
def endNoscript (name : Str) : EM Bool :=
  iteQ (fun _ s => s.inNoscript)
    (if name = c%"noscript" then do
      setNoscript false
      whQ (fun C s => C.plan.rawMode && 1 < s.stack.length && s.topName = c%"noscript") (modS St.pop)
      pure true
     else if name ≠ c%"br" then pure true
     else do
      leaveNoscript
      pure false)
    (pure false)

/-- parser/engine.py:2700-2709 (and 3017-3025): the end tag of a heading closes any open heading. -/
def endHeading : EM Unit := do
  match ← q fun C s => s.openHeading C.E.U with
  | none => pure ()
  | some i => cutAt i

/-- parser/engine.py:2756-2763 (and 3082-3089): is `</p>` without a `p` ignored? -/
def strayPIgnored (noTpl : St → Bool) (C : Cfg) (s : St) : Bool :=
  !C.fragment && (noTpl s || s.tmode = some .initial) && !s.bodyExplicit && !s.bodySeen && !s.bodyHasContent

/-- parser/engine.py:2768-2781 (and 3092-3101): close the element at index `i`. -/
def closeAt (name : Str) (i : Nat) : EM Unit :=
  iteQ (fun _ s => s.ctxNode.isSome && s.ctxNode = some (s.stack.getD i 0)) (pure ()) (do
    whQ (fun _ _ => impliedEnd.contains name) (impliedEnds (some name))
    markDirty
    whQ (fun _ _ => tableCells.contains name || markerTags.contains name) (clearToMarker true)
    modS fun s => s.cut i)

/-! ### The compiled function -/

/-- Insert an element the compiled way and record it if it is not allowed (parser/engine.py:2694-2697, 2764-2766). -/
def insertSafe (name : Str) (attrs : Attrs) : EM Unit := do
  let p ← q fun _ s => s.curParent
  let node ← insertCompiled name attrs p
  whQ (fun C _ => !C.plan.allowedTags.contains name) (noteUnwrap node)

/-- parser/engine.py:2728-2752: the element that the end tag closes. -/
def compiledEndIdx (name : Str) (a : Option TagAction) (C : Cfg) (s : St) : Option Nat :=
  let U := C.E.U
  if name = c%"p" then s.inScope U c%"p" pScope
  else if name = c%"li" then s.inScope U c%"li" liScope
  else if name = c%"dd" || name = c%"dt" then s.inScope U name ddScope
  else if [c%"audio", c%"noscript", c%"slot", c%"title"].contains name then s.specialScope U name
  else if name = c%"summary" then s.inScope U name defaultScope
  else if s.poDepth ≠ 0 then s.inTemplateScope name
  else if !special.contains name && !(a.map (·.pClosing)).getD false then s.inScope U name generalScope
  else if tableScopedEnd.contains name then s.inScope U name tableScope
  else s.inScope U name defaultScope

/-- parser/engine.py:2728-2781: the general rule of the compiled function. -/
def compiledEndGeneral (name : Str) (a : Option TagAction) : EM Bool := do
  match ← q (compiledEndIdx name a) with
  | none => do
    whQ (fun C s => name = c%"p" && !strayPIgnored (fun s => s.poDepth = 0) C s) (do
      insertSafe c%"p" []
      closeBefore' c%"p" pScope)
    pure true
  | some i => do
    closeAt name i
    pure true

/-- parser/engine.py:2577-2592: the current node is closed. -/
def simpleEndNow (name : Str) (a : Option TagAction) (_ : Cfg) (s : St) : Bool :=
  (a.map (·.simpleEnd)).getD false && s.poDepth = 0 && !s.framesetSeen && !s.inNoscript && s.topName = name && s.ctxNode ≠ some s.top

/-- parser/engine.py:2594-2615: the current node is the last formatting element. -/
def fmtEndNow (name : Str) (a : Option TagAction) (_ : Cfg) (s : St) : Bool :=
  (a.map (·.activeFormatting)).getD false && s.poDepth = 0 && !s.inNoscript && (!s.framesetSeen || s.bodyExplicit) && (s.adoptFast name).isSome

/-- Is the action a formatting one? -/
def isFmt (a : Option TagAction) : Bool := (a.map (·.activeFormatting)).getD false

/-- parser/engine.py:2577-2781: the tests of the compiled function. -/
def compiledEndTests (name : Str) (a : Option TagAction) : List (EM Bool) :=
  [doneIf (simpleEndNow name a) (modS St.pop),
   doneIf (fmtEndNow name a) (do
     match ← q fun _ s => s.adoptFast name with
     | none => pure ()
     | some e => do
       modS St.pop
       retire e.eid),
   doneIf (fun C _ => !C.fragment && (name = c%"html" || name = c%"body")) endShell,
   doneIf (fun C _ => !C.fragment && name = c%"head") endHead,
   doneIf (fun _ s => name = c%"colgroup" && s.poDepth = 0) endColgroup,
   stepIf (fun _ _ => true) (endClosesCell name),
   doneIf (fun _ _ => name = c%"template") endTemplate,
   iteQ (fun _ s => s.poDepth ≠ 0) (tplEnd name) (pure false),
   doneIf (fun _ s => s.framesetSeen && !s.bodyExplicit) (pure ()),
   doneIf (endInHead name) (pure ()),
   stepIf (brLeavesHead name) toBody,
   endNoscript name,
   doneIf (fun _ _ => name = c%"br") (do
     reconIfDirty
     insertSafe c%"br" []),
   doneIf (fun _ _ => headings.contains name) endHeading,
   doneIf (fun _ _ => isFmt a) (adoption name),
   doneIf (fun _ s => s.poDepth = 0 && s.topName = name && s.ctxNode ≠ some s.top) (do
     whQ (fun _ _ => tableCells.contains name || markerTags.contains name) (clearToMarker true)
     modS St.pop),
   compiledEndGeneral name a]

/-- parser/engine.py:2556-2575 in `_parse_compiled_safe_end_tag`: the tag itself; `s` is the text after `</`. -/
def compiledEndTag (s : Str) : EM Str :=
  match s with
  | [] => do
    appendText c%"</"
    pure []
  | c :: r =>
    if !isAsciiLetter c then pure (skipGt (c :: r))
    else do
      let name ← q fun C _ => compiledName C (splitName (c :: r)).1
      let a ← q fun C _ => C.plan.action name
      markInitial
      chain (compiledEndTests name a)
      pure (if (splitName (c :: r)).2.head? = some '>' then (splitName (c :: r)).2.tail else (skipAttrs (splitName (c :: r)).2).rest)

/-! ### The general function -/

/-- parser/engine.py:2840-2848: end tags in a frameset. -/
def endFrameset (name : Str) : EM Unit :=
  if name = c%"frameset" then do
    whQ (fun _ s => 1 < s.stack.length && s.topName = c%"frameset") (modS St.pop)
    whQ (fun _ s => (s.findOpen c%"frameset").isNone) (setAfter .body)
  else whQ (fun _ s => name = c%"html" && s.after = .body) (setAfter .html)

/-- parser/engine.py:2849-2856: an end tag after the body goes back to the body. -/
def backToBody : EM Unit := do
  whQ (fun _ s => (s.findOpenHtml c%"body").isNone) stackToBody
  setAfter .no
  modS fun s => { s with bodySeen := true }

/-- parser/engine.py:2858-2890: `</html>` and `</body>`. -/
def endBody (name : Str) : EM Unit :=
  iteQ (fun C s => (s.findOpenHtml c%"select").isSome || ((s.findOpenHtml c%"body").isSome && (s.inScope C.E.U c%"body" defaultScope).isNone))
    (pure ())
    (do
      setColgroup false
      whQ (fun _ s => s.head.isSome && s.head = some s.top) stackToBody
      whQ (fun _ s => s.framesetSeen && !s.bodyExplicit) stackToHtml
      modS fun s => { s with afterHead := false, bodySeen := true }
      setAfter (if name = c%"body" then .body else .html))

/-- parser/engine.py:2938-2954: `</form>`. -/
def endForm : EM Unit := do
  let f ← q fun _ s => s.form
  modS fun s => { s with form := none }
  match f with
  | none => pure ()
  | some f =>
    whQ (fun C s => match s.inScope C.E.U c%"form" defaultScope with | none => false | some i => s.stack.getD i 0 = f) (do
      impliedEnds none
      modS fun s => { s with stack := s.stack.erase f })

/-- parser/engine.py:2955-2962: end tags of elements outside an open `select`. -/
def endSelect (name : Str) : EM Bool :=
  iteQ (fun _ s => ![c%"optgroup", c%"option", c%"select", c%"selectedcontent", c%"template"].contains name &&
      bothLt (s.findOpen name) (s.findOpenHtml c%"select"))
    (if tableScopedEnd.contains name then do
      closeHtmlUntil c%"select"
      pure false
     else pure true)
    (pure false)

/-- parser/engine.py:2963-2969: is a `p` nearer than the `menuitem`? -/
def menuitemIgnored (name : Str) (_ : Cfg) (s : St) : Bool :=
  name = c%"menuitem" &&
    (match s.stack.reverse.find? fun i => (s.n i).name = c%"p" || (s.n i).name = c%"menuitem" with
     | none => false
     | some i => (s.n i).name = c%"p")

/-- parser/engine.py:3009-3016: `</select>` in a template. -/
def endTplSelect : EM Unit := do
  match ← q fun C s => s.inScope C.E.U c%"select" defaultScope with
  | none => pure ()
  | some i => do
    markDirty
    modS fun s => { s with stack := s.stack.eraseIdx i }

/-- parser/engine.py:3026-3040: is the formatting element outside an open `select`? -/
def fmtBelowSelect (name : Str) (_ : Cfg) (s : St) : Bool :=
  match s.findOpenHtml c%"select", s.fmtFind name with
  | some sel, some i =>
    (match s.fmt.getD i none with
     | none => false
     | some e => match indexOf? s.stack e.node with | none => false | some j => j < sel)
  | _, _ => false

/-- parser/engine.py:3056-3079: the element that the end tag closes. -/
def endIdx (name : Str) (a : Option TagAction) (C : Cfg) (s : St) : Option Nat :=
  let U := C.E.U
  if name = c%"p" then s.inScope U c%"p" pScope
  else if name = c%"li" then s.inScope U c%"li" liScope
  else if name = c%"dd" || name = c%"dt" then s.inScope U name ddScope
  else if tableScopedEnd.contains name then s.tableScopedEnd name
  else if [c%"audio", c%"noscript", c%"slot", c%"title"].contains name then s.specialScope U name
  else if name = c%"summary" then s.inScope U name defaultScope
  else if !s.tmodes.isEmpty then s.inScope U name (tplEndBoundaries name a)
  else if !special.contains name && !(a.map (·.pClosing)).getD false then s.inScope U name generalScope
  else s.inScope U name defaultScope

/-- parser/engine.py:3056-3101: the general rule. -/
def endGeneral (name : Str) (a : Option TagAction) : EM Bool := do
  match ← q (endIdx name a) with
  | none => do
    whQ (fun C s => name = c%"p" && !strayPIgnored (fun s => s.tmodes.isEmpty) C s) (do
      insertHere' c%"p" [] false
      closeBefore' c%"p" pScope)
    pure true
  | some i => do
    closeAt name i
    pure true

/-- parser/engine.py:2835-3101: the tests of the general function. -/
def endTests (name : Str) (a : Option TagAction) : List (EM Bool) :=
  [endStaysForeign name,
   iteQ (fun _ s => !s.tmodes.isEmpty) (tplEnd name) (pure false),
   doneIf (fun _ s => s.framesetSeen && !s.bodyExplicit) (endFrameset name),
   stepIf (fun C s => !C.fragment && s.after ≠ .no && name ≠ c%"body" && name ≠ c%"html") backToBody,
   doneIf (fun C _ => !C.fragment && (name = c%"html" || name = c%"body")) (endBody name),
   doneIf (fun C _ => C.fragment && C.ctxName = some c%"html" && name = c%"html") (modS fun s => { s with stack := [s.doc] }),
   doneIf (fun C _ => !C.fragment && name = c%"head") endHead,
   doneIf (fun _ s => name = c%"colgroup" && s.poDepth = 0) endColgroup,
   stepIf (fun _ s => s.inColgroup && 1 < s.stack.length && s.topName = c%"colgroup" && s.poDepth = 0) (do
     setColgroup false
     modS St.pop),
   stepIf (fun _ _ => true) (endClosesCell name),
   doneIf (fun _ _ => name = c%"template") endTemplate,
   doneIf (fun _ s => name = c%"form" && s.tmodes.isEmpty) endForm,
   endSelect name,
   doneIf (menuitemIgnored name) (pure ()),
   doneIf (endInHead name) (pure ()),
   stepIf (brLeavesHead name) toBody,
   endNoscript name,
   doneIf (fun _ _ => name = c%"br") (do
     reconIfDirty
     insertHere' c%"br" [] false),
   doneIf (fun _ s => name = c%"select" && !s.tmodes.isEmpty) endTplSelect,
   doneIf (fun _ _ => headings.contains name) endHeading,
   doneIf (fun C s => isFmt a && fmtBelowSelect name C s) (pure ()),
   doneIf (fun _ _ => isFmt a) (adoption name),
   doneIf (fun C s => s.tmodes.isEmpty && 1 < s.stack.length && matchesEnd C.E.U (s.n s.top) name && !(s.ctxNode.isSome && s.ctxNode = some s.top)) (do
     markDirty
     whQ (fun _ _ => tableCells.contains name || markerTags.contains name) (clearToMarker true)
     modS St.pop),
   endGeneral name a]

/-- parser/engine.py:2792-2808: `</` followed by something that is not a letter. -/
def bogusEnd (s : Str) : EM Str := do
  let C ← cfg
  if s.head? = some '>' && !(C.plan.rawMode && C.spans) then pure s.tail
  else do
    whQ (fun C _ => C.plan.rawMode && C.spans) (appendText (c%"</" ++ s.take (s.length - (skipGt s).length)))
    whQ (fun C _ => C.plan.rawMode && !C.spans && !C.plan.dropComments)
      (appendComment (nulFix (s.takeWhile fun c => c ≠ '>')) (C.html.take (C.html.length - s.length - 2)))
    pure (skipGt s)

/-- parser/engine.py:2816-2842: an end tag of a raw parse that is not closed, or that is kept as text with tag spans. -/
def endAsText (name raw after : Str) (scan : AttrScan) : EM Bool := do
  let tag := c%"</" ++ raw ++ after.take (after.length - scan.rest.length)
  iteQ (fun C _ => C.plan.rawMode && !scan.ok)
    (do
      whQ (fun C _ => C.spans && !blank after) (appendText (c%"</" ++ raw ++ after))
      pure true)
    (doneIf (fun C s => C.plan.rawMode && C.spans && name ≠ c%"br" &&
        !blank ((after.take (after.length - scan.rest.length)).dropLast) && (s.findOpen name).isNone)
      (appendText tag))

/-- parser/engine.py:2783-3101 `_parse_end_tag`; `s` is the text after `</`. -/
def endTag (s : Str) : EM Str :=
  match s with
  | [] => do
    appendText c%"</"
    pure []
  | c :: r =>
    if !isAsciiLetter c then bogusEnd (c :: r)
    else do
      let raw := (splitName (c :: r)).1
      let after := (splitName (c :: r)).2
      let name ← q fun C _ => C.E.U.lower raw
      markInitial
      let a ← q fun C _ => C.plan.action name
      let scan ← q fun C _ => allAttrs C after
      noteErr scan.err
      chain (endAsText name raw after scan :: endTests name a)
      pure (if scan.ok then scan.rest else [])

/-- parser/engine.py:2543-2781 `_parse_compiled_safe_end_tag`: while foreign elements are open the general function is used. -/
def safeEndTag (s : Str) : EM Str :=
  iteQ (fun _ s => s.foreignSeen && (s.stack.tail.any fun i => !openHtml (s.n i).ns)) (endTag s) (do
    modS fun s => { s with foreignSeen := false }
    compiledEndTag s)

end JH.Eng
