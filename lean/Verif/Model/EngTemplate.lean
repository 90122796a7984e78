import Verif.Model.EngRaw

/-! Model of the insertion modes of fragment contexts and templates in /repo/src/justhtml/parser/engine.py. A handler that returns `pos` has handled the
tag (`true`); one that returns `None` has not (`false`). -/
namespace JH.Eng

/-- `if self._close_to_fragment_context(): self._insert_sanitized_element(…)`; was it closed? -/
def insertInContext (name : Str) (attrs : Attrs) (sc : Bool) : EM Bool := do
  let ok ← closeToContext
  whQ (fun _ _ => ok) (insertHere' name attrs sc)
  pure ok

/-- The same where the answer is not used. -/
def insertInContext' (name : Str) (attrs : Attrs) (sc : Bool) : EM Unit := do
  let _ ← insertInContext name attrs sc

/-- parser/engine.py:4613-4635: the context `table`. -/
def ctxTable (name : Str) (attrs : Attrs) (sc : Bool) : EM Bool :=
  if name = c%"colgroup" then do
    insertInContext' name attrs sc
    pure true
  else if name = c%"col" then do
    whQ (fun _ s => s.parentName = c%"colgroup") (insertHere' name attrs sc)
    pure true
  else if name = c%"table" then pure true
  else if name = c%"caption" then insertInContext name attrs sc
  else pure false

/-- parser/engine.py:4648-4660: a cell in the context of a table section. -/
def ctxCell (name : Str) (attrs : Attrs) (sc : Bool) : EM Unit := do
  closeCell
  whQ (fun _ s => s.parentName ≠ c%"tr") (insertInContext' c%"tr" [] false)
  whQ (fun _ s => s.parentName = c%"tr") (insertHere' name attrs sc)

/-- parser/engine.py:4637-4660: the contexts `tbody`, `thead` and `tfoot`. -/
def ctxSection (name : Str) (attrs : Attrs) (sc : Bool) : EM Bool :=
  iteQ (fun _ s => nestedTableStart name s) (pure false) (do
    let done ← if name = c%"tr" then insertInContext name attrs sc else pure false
    if done then pure true
    else if tableCells.contains name then do
      ctxCell name attrs sc
      pure true
    else pure (tableStructure.contains name))

/-- parser/engine.py:4662-4674: the context `tr`. -/
def ctxRow (name : Str) (attrs : Attrs) (sc : Bool) : EM Bool :=
  iteQ (fun _ s => nestedTableStart name s) (pure false) (do
    let done ← if tableCells.contains name then insertInContext name attrs sc else pure false
    if done then pure true else pure (tableStructure.contains name))

/-- parser/engine.py:4579-4661 `_handle_fragment_context_start`. -/
def fragmentStart (name : Str) (attrs : Attrs) (sc : Bool) : EM Bool := do
  let ctx ← q fun C _ => C.ctxName.getD []
  if ctx = c%"html" then pure ([c%"html", c%"head", c%"body"].contains name)
  else if (ctx = c%"body" || ctx = c%"div") && [c%"html", c%"head", c%"body", c%"frameset"].contains name then pure true
  else if ctx = c%"colgroup" then do
    if name = c%"col" then insertInContext' name attrs sc else pure ()
    pure true
  else if ctx = c%"caption" then pure (tableStructure.contains name && name ≠ c%"table")
  else if ctx = c%"table" then ctxTable name attrs sc
  else if tableSections.contains ctx then ctxSection name attrs sc
  else if ctx = c%"tr" then ctxRow name attrs sc
  else pure false

/-! ### Templates -/

/-- parser/engine.py:4663-4676 `_insert_template_mode_element` (the tags `listing` and `pre` never get here). -/
def insertTpl (name : Str) (attrs : Attrs) (sc : Bool) : EM (Option Nat) :=
  iteQ (fun C _ => !C.plan.rawMode && !C.plan.allowedTags.contains name)
    (do
      whQ (fun _ _ => preLf.contains name) (modS fun s => { s with ignoreLf := true })
      pure none)
    (do
      let node ← insertHere name attrs sc
      whQ (fun _ _ => preLf.contains name) (modS fun s => { s with ignoreLf := true })
      pure (some node))

/-- The same where the node is not used. -/
def insertTpl' (name : Str) (attrs : Attrs) (sc : Bool) : EM Unit := do
  let _ ← insertTpl name attrs sc

/-- `del self._stack[i:]`. -/
def delFrom (i : Nat) : EM Unit := modS fun s => s.cut i

/-- parser/engine.py:4982-4992 `_close_open_template_table_section`. -/
def closeTplSection : EM Bool := do
  match ← q fun _ s => s.lastIdxStop (fun n => tableSections.contains n.name) (fun n => n.name = c%"template") with
  | none => pure false
  | some i => do
    cutAt i
    pure true

/-- parser/engine.py:4994-5011 `_close_template_cell`. -/
def closeTplCell (name : Option Str) : EM Bool := do
  match ← q fun _ s => s.lastIdxStop (fun n => tableCells.contains n.name) (fun n => n.name = c%"template") with
  | none => pure false
  | some i =>
    iteQ (fun _ s => name.isSome && name ≠ some (s.n (s.stack.getD i 0)).name) (pure false) (do
      markDirty
      clearToMarker true
      delFrom i
      setTMode .row
      pure true)

/-- `[template]`: parser/engine.py:208 `_TEMPLATE_SCOPE_BOUNDARIES`. -/
def tplScope : List Str := [c%"template"]

/-- parser/engine.py:4836-4846 (and 4851-4861): the section or template in which a row goes. -/
def St.rowContext (s : St) : Option Nat :=
  match s.lastIdx fun n => tableSections.contains n.name with
  | none => s.openTemplate
  | some i => match s.openTemplate with | none => some i | some t => if i > t then some i else some t

/-- `del self._stack[insertion_context_idx + 1:]`. -/
def cutToRowContext : EM Unit := modS fun s => match s.rowContext with | none => s | some i => s.cut (i + 1)

/-- The open row in the template. -/
def tplRowIdx (C : Cfg) (s : St) : Option Nat := s.inScope C.E.U c%"tr" tplScope

/-- parser/engine.py:4882-4909 `_handle_template_row_start`; `rec` is `_handle_template_mode_start`. -/
def tplRow (rec : Str → Attrs → Bool → EM Bool) (name : Str) (attrs : Attrs) (sc : Bool) : EM Bool :=
  if headContent.contains name then pure false
  else if tableCells.contains name then do
    match ← q tplRowIdx with
    | none => pure ()
    | some i => delFrom (i + 1)
    setTMode .cell
    insertTpl' name attrs sc
    pure true
  else
    iteQ (fun C s => name = c%"table" && (tplRowIdx C s).isSome)
      (do
        closeBefore' c%"tr" tplScope
        let _ ← closeTplSection
        setTMode .table
        rec name attrs sc)
      (if tplRowStructure.contains name then
        iteQ (fun C s => (tplRowIdx C s).isSome)
          (do
            closeBefore' c%"tr" tplScope
            setTMode .tableBody
            rec name attrs sc)
          (pure true)
       else pure false)

/-- parser/engine.py:4864-4868 (and 4873-4877): close the section and try again. -/
def tplAgain (rec : Str → Attrs → Bool → EM Bool) (name : Str) (attrs : Attrs) (sc : Bool) : EM Bool := do
  let ok ← closeTplSection
  if ok then do
    setTMode .table
    rec name attrs sc
  else pure true

/-- parser/engine.py:4829-4880 `_handle_template_table_body_start`. -/
def tplTableBody (rec : Str → Attrs → Bool → EM Bool) (name : Str) (attrs : Attrs) (sc : Bool) : EM Bool :=
  if name = c%"tr" then do
    cutToRowContext
    setTMode .row
    insertTpl' name attrs sc
    pure true
  else if tableCells.contains name then do
    cutToRowContext
    setTMode .row
    insertTpl' c%"tr" [] false
    tplRow rec name attrs sc
  else if tableSections.contains name then tplAgain rec name attrs sc
  else if tplBodyIgnored.contains name then
    iteQ (fun C s => name = c%"table" && (s.inScope C.E.U c%"table" tplScope).isNone) (pure true) (tplAgain rec name attrs sc)
  else pure false

/-- parser/engine.py:4702-4717: a form in table mode. -/
def formInTable (s : St) : Bool :=
  s.tmode = some .table || s.tmode = some .tableBody || s.tmode = some .row ||
    (s.tmode = some .body && bothLt s.openTemplate (s.findOpen c%"table"))

/-- parser/engine.py:4719-4723: a form in table mode is not left open. -/
def tplForm (name : Str) (attrs : Attrs) (sc : Bool) : EM Unit := do
  match ← insertTpl name attrs sc with
  | none => pure ()
  | some node => whQ (fun _ s => s.top = node) (modS St.pop)

/-- parser/engine.py:4725-4736: "in column group". -/
def tplColgroup (rec : Str → Attrs → Bool → EM Bool) (name : Str) (attrs : Attrs) (sc : Bool) : EM Bool :=
  if name = c%"col" then do
    insertTpl' name attrs sc
    pure true
  else
    iteQ (fun _ s => s.stack.length ≤ 1 || s.topName ≠ c%"colgroup")
      (iteQ (fun _ s => s.poDepth = 0 || !tplTableContext.contains name) (pure true) (do
        setTMode .table
        rec name attrs sc))
      (do
        modS St.pop
        setTMode .table
        rec name attrs sc)

/-- parser/engine.py:4738-4766: the initial mode of a template. -/
def tplInitial (rec : Str → Attrs → Bool → EM Bool) (name : Str) (attrs : Attrs) (sc : Bool) : EM Bool :=
  if name = c%"table" then do
    setTMode .table
    pure false
  else if tableSections.contains name then do
    setTMode .tableBody
    insertTpl' name attrs sc
    pure true
  else if name = c%"caption" then do
    setTMode .table
    insertTpl' name attrs sc
    pure true
  else if name = c%"colgroup" || name = c%"col" then do
    setTMode .colgroup
    insertTpl' name attrs sc
    pure true
  else if name = c%"tr" then do
    setTMode .tableBody
    tplTableBody rec name attrs sc
  else if tableCells.contains name then do
    setTMode .row
    tplRow rec name attrs sc
  else do
    if headContent.contains name then pure () else setTMode .body
    pure false

/-- parser/engine.py:4776-4816: "in table". -/
def tplTable (rec : Str → Attrs → Bool → EM Bool) (name : Str) (attrs : Attrs) (sc : Bool) : EM Bool := do
  let table ← q fun _ s => s.findOpen c%"table"
  let clear ← q fun _ s => match table with | some t => some t | none => s.openTemplate
  if name = c%"table" then
    match table with
    | none => pure true
    | some t => do
      delFrom t
      insertTpl' name attrs sc
      pure true
  else do
    if tplTableContext.contains name then (match clear with | none => pure () | some i => delFrom (i + 1)) else pure ()
    if tableSections.contains name then do
      setTMode .tableBody
      insertTpl' name attrs sc
      pure true
    else if name = c%"tr" || tableCells.contains name then do
      setTMode .tableBody
      insertTpl' c%"tbody" [] false
      tplTableBody rec name attrs sc
    else if name = c%"col" then do
      setTMode .colgroup
      insertTpl' c%"colgroup" [] false
      insertTpl' name attrs sc
      pure true
    else if name = c%"colgroup" then do
      setTMode .colgroup
      insertTpl' name attrs sc
      pure true
    else pure false

/-- parser/engine.py:4678-4827 `_handle_template_mode_start`; `rec` is the function itself. -/
def tplMode (rec : Str → Attrs → Bool → EM Bool) (name : Str) (attrs : Attrs) (sc : Bool) : EM Bool := do
  let mode ← q fun _ s => s.tmode
  if mode.isNone then pure false
  else if name = c%"body" then do
    whQ (fun _ s => (s.findOpen c%"table").isNone || s.openTemplate.isNone || bothLt (s.findOpen c%"table") s.openTemplate) (setTMode .body)
    pure true
  else if name = c%"html" || name = c%"head" then pure true
  else if name = c%"template" then pure false
  else
    iteQ (fun _ s => name = c%"form" && formInTable s)
      (do
        tplForm name attrs sc
        pure true)
      (match mode with
       | some .colgroup => tplColgroup rec name attrs sc
       | some .initial => tplInitial rec name attrs sc
       | some .body =>
         if name = c%"table" then do
           setTMode .table
           pure false
         else pure (tplTableContext.contains name)
       | some .table => tplTable rec name attrs sc
       | some .tableBody => tplTableBody rec name attrs sc
       | some .row => tplRow rec name attrs sc
       | some .cell =>
         if name = c%"table" then do
           setTMode .table
           pure false
         else if tplTableContext.contains name then do
           let ok ← closeTplCell none
           if ok then rec name attrs sc else pure true
         else pure false
       | none => pure false)

/-- parser/engine.py:4678-4827 `_handle_template_mode_start`: every recursive call is for a mode further out (cell, row, table body or column group,
table), so five rounds are enough. -/
def tplStartF : Nat → Str → Attrs → Bool → EM Bool
  | 0, _, _, _ => pure false
  | n + 1, name, attrs, sc => tplMode (tplStartF n) name attrs sc

/-- parser/engine.py:4678-4827 `_handle_template_mode_start`. -/
def tplStart (name : Str) (attrs : Attrs) (sc : Bool) : EM Bool := tplStartF 8 name attrs sc

/-- parser/engine.py:4947-4959: an end tag "in row". -/
def tplEndRow (rec : Str → EM Bool) (name : Str) : EM Bool :=
  if name = c%"tr" then do
    let ok ← closeBefore c%"tr" tplScope
    if ok then setTMode .tableBody else pure ()
    pure true
  else if name = c%"table" then do
    let ok ← closeBefore c%"tr" tplScope
    if ok then do
      setTMode .tableBody
      rec name
    else pure true
  else pure ([c%"caption", c%"col", c%"colgroup", c%"td", c%"th"].contains name)

/-- parser/engine.py:4960-4973: an end tag "in table body". -/
def tplEndTableBody (rec : Str → EM Bool) (name : Str) : EM Bool :=
  if tableSections.contains name then do
    let ok ← closeBefore name tplScope
    if ok then setTMode .table else pure ()
    pure true
  else if name = c%"table" then do
    let ok ← closeTplSection
    if ok then do
      setTMode .table
      rec name
    else pure true
  else pure ([c%"caption", c%"col", c%"colgroup", c%"td", c%"th", c%"tr"].contains name)

/-- parser/engine.py:4936-4946: an end tag "in cell". -/
def tplEndCell (name : Str) : EM Bool :=
  if tableCells.contains name then closeTplCell (some name)
  else if [c%"table", c%"tbody", c%"tfoot", c%"thead", c%"tr"].contains name then
    iteQ (fun C s => (s.inScope C.E.U name tplScope).isNone) (pure true) (do
      let _ ← closeTplCell none
      pure false)
  else pure false

/-- parser/engine.py:4974-4984: an end tag "in column group". -/
def tplEndColgroup (name : Str) : EM Bool :=
  if name = c%"colgroup" then do
    whQ (fun _ s => 1 < s.stack.length && s.topName = c%"colgroup") (modS St.pop)
    setTMode .table
    pure true
  else pure (name ≠ c%"template")

/-- parser/engine.py:4985-4988: an end tag "in table". -/
def tplEndTable (name : Str) : EM Bool :=
  if name = c%"table" then do
    let ok ← closeBefore c%"table" tplScope
    if ok then setTMode .body else pure ()
    pure true
  else pure false

/-- parser/engine.py:4911-4977 `_handle_template_mode_end`; `rec` is the function itself. -/
def tplEndMode (rec : Str → EM Bool) (name : Str) : EM Bool := do
  let mode ← q fun _ s => s.tmode
  if mode.isNone then pure false
  else if [c%"html", c%"head", c%"body"].contains name then pure true
  else
    match mode with
    | some .initial => if name = c%"template" then pure false else q fun C s => (s.inScope C.E.U name tplScope).isNone
    | some .cell => tplEndCell name
    | some .row => tplEndRow rec name
    | some .tableBody => tplEndTableBody rec name
    | some .colgroup => tplEndColgroup name
    | some .table => tplEndTable name
    | _ => pure false

/-- parser/engine.py:4911-4977 `_handle_template_mode_end`: a recursive call is for a mode further out. -/
def tplEndF : Nat → Str → EM Bool
  | 0, _ => pure false
  | n + 1, name => tplEndMode (tplEndF n) name

/-- parser/engine.py:4911-4977 `_handle_template_mode_end`. -/
def tplEnd (name : Str) : EM Bool := tplEndF 8 name

end JH.Eng
