import Verif.Model.EngAttrs

/-! Model of the tree operations of /repo/src/justhtml/parser/engine.py: inserting and moving nodes, the list of active formatting elements, the
adoption agency, and the repairs of the open-elements stack. -/
namespace JH.Eng

/-- `if c: m`. -/
def whQ (c : Cfg → St → Bool) (m : EM Unit) : EM Unit := fun C s => if c C s then m C s else ((), s)

/-- `m₁ if c else m₂`. -/
def iteQ {α : Type} (c : Cfg → St → Bool) (m₁ m₂ : EM α) : EM α := fun C s => if c C s then m₁ C s else m₂ C s

/-! ### Nodes -/

/-- A constructor call. -/
def St.add (s : St) (n : ENode) : St := { s with heap := s.heap ++ [n] }

/-- A constructor call; the new node. -/
def alloc (n : ENode) : EM Nat := fun _ s => (s.heap.length, s.add n)

/-- dom/__init__.py:586-597 `Element(name, attrs, ns)`. -/
def elementNode (name : Str) (attrs : Attrs) (ns : Option Str) : ENode := { kind := .element, name := name, ns := ns, attrs := attrs }

/-- dom/__init__.py:747-752 `Text(data)`. -/
def textNode (data : Str) : ENode := { kind := .text, name := c%"#text", data := data }

/-- dom/__init__.py:672-685 `Template(name, attrs, namespace="html")`: the element and its content fragment. -/
def allocTemplate (name : Str) (attrs : Attrs) : EM Nat := fun _ s =>
  (s.heap.length,
    { s with heap := s.heap ++
      [{ kind := .template, name := name, ns := some c%"html", attrs := attrs, content := some (s.heap.length + 1) },
       { kind := .fragment, name := c%"#document-fragment", parent := some s.heap.length }] })

/-- `children.insert(pos, c); c.parent = p`. -/
def St.link (s : St) (p pos c : Nat) : St :=
  (s.upd p fun n => { n with children := n.children.take pos ++ c :: n.children.drop pos }).upd c fun n => { n with parent := some p }

/-- `children.append(c); c.parent = p`. -/
def St.linkLast (s : St) (p c : Nat) : St :=
  (s.upd p fun n => { n with children := n.children ++ [c] }).upd c fun n => { n with parent := some p }

/-- The place of the new node `c`: in Python a new node can only be put under an older one. Here nodes are numbers by age, and a number that is not older
stands for no place. (That this case never counts is not needed for any theorem.) -/
def St.older (s : St) (p c : Nat) : Nat := if p < c then p else s.heap.length

/-- `type(node) is Text`. -/
def St.isText (s : St) (i : Nat) : Bool := (s.n i).kind = .text

/-- parser/engine.py:1705-1711 `_append`. -/
def St.append (s : St) (p c : Nat) : St :=
  match (s.n p).children.getLast? with
  | some l => if s.isText c && s.isText l then s.upd l fun n => { n with data := n.data ++ (s.n c).data } else s.linkLast p c
  | none => s.linkLast p c

/-- parser/engine.py:1705-1711 `_append` with a new node. -/
def appendNew (p : Nat) (n : ENode) : EM Unit := fun _ s => ((), (s.add n).append ((s.add n).older p s.heap.length) s.heap.length)

/-- parser/engine.py:1713-1717 `_append_text_boundary`. -/
def appendBoundary (p : Nat) : EM Unit := fun _ s =>
  ((), (s.add (textNode [])).linkLast ((s.add (textNode [])).older p s.heap.length) s.heap.length)

/-- parser/engine.py:4399-4413 `_insert_at`. It is only called with a new node. -/
def St.insertAt (s : St) (p pos c : Nat) : St :=
  let ch := (s.n p).children
  if s.isText c && 0 < pos && pos ≤ ch.length && s.isText (ch.getD (pos - 1) 0) then
    s.upd (ch.getD (pos - 1) 0) fun n => { n with data := n.data ++ (s.n c).data }
  else if s.isText c && pos < ch.length && s.isText (ch.getD pos 0) then
    s.upd (ch.getD pos 0) fun n => { n with data := (s.n c).data ++ n.data }
  else s.link (s.older p c) pos c

/-- parser/engine.py:5947-5956 `_detach_node`. -/
def St.detach (s : St) (c : Nat) : St :=
  match (s.n c).parent with
  | none => s
  | some p =>
    if (s.n p).children.contains c then
      (s.upd p fun n => { n with children := n.children.erase c }).upd c fun n => { n with parent := none }
    else s

/-- The list of children that a node put under `p` goes to. -/
def St.slot (s : St) (p : Nat) : Nat := if (s.n p).kind = .template then (s.n p).content.getD p else p

/-- parser/engine.py:5958-5963 `_append_moved_node`. -/
def St.appendMoved (s : St) (p c : Nat) : St := s.linkLast (s.slot p) c

/-- parser/engine.py:5965-5972 `_insert_moved_node_at`. -/
def St.insertMoved (s : St) (p pos c : Nat) : St := s.link (s.slot p) pos c

/-- `stack.append(node)`. -/
def push (i : Nat) : EM Unit := modS fun s => { s with stack := s.stack ++ [i] }

/-- `self._nodes_to_unwrap.append(node)`. -/
def noteUnwrap (i : Nat) : EM Unit := modS fun s => { s with toUnwrap := s.toUnwrap ++ [i] }

/-- `self._nodes_to_drop.append(node)`. -/
def noteDrop (i : Nat) : EM Unit := modS fun s => { s with toDrop := s.toDrop ++ [i] }

/-- `a is not None and b is not None and a < b`. -/
def bothLt (a b : Option Nat) : Bool :=
  match a, b with
  | some a, some b => decide (a < b)
  | _, _ => false

/-- parser/engine.py:5238-5289 `_foster_parent_for`. -/
def fosterFor (parent : Nat) (forTag : Option Str) (C : Cfg) (s : St) : Option (Nat × Nat) :=
  if !fosterTargets.contains (s.n parent).name || !openHtml (s.n parent).ns then none
  else if (match forTag with | some t => C.plan.tableAllowedChildren.contains t | none => false) then none
  else
    let table := s.findOpen c%"table"
    let po := if s.poDepth ≠ 0 then s.openPoTemplate else none
    if bothLt table po then none
    else
      let tpl := if s.tmodes.isEmpty then none else s.openTemplate
      let table := if bothLt table tpl then none else table
      match table with
      | none =>
        if s.tmodes.isEmpty then none
        else
          match (match tpl with
            | some i => if (s.n (s.stack.getD i 0)).kind = .template then (s.n (s.stack.getD i 0)).content else none
            | none => none) with
          | some c => some (c, (s.n c).children.length)
          | none =>
            match (s.n parent).parent with
            | none => none
            | some g => (indexOf? (s.n g).children parent).map fun i => (g, i + 1)
      | some t =>
        match (s.n (s.stack.getD t 0)).parent with
        | none => none
        | some g => (indexOf? (s.n g).children (s.stack.getD t 0)).map fun i => (g, i)

/-! ### Active formatting elements -/

/-- parser/engine.py:5218-5220 `_push_active_formatting_marker`. -/
def pushMarker : EM Unit := modS fun s => { s with fmt := s.fmt ++ [none] }

/-- parser/engine.py:5926-5934 `_refresh_active_formatting_dirty`. -/
def refreshDirty : EM Unit := modS fun s =>
  { s with fmtDirty := s.fmt.any fun e => match e with | some e => e.active && !s.stack.contains e.node | none => false }

/-- parser/engine.py:5224-5230: the entries before the last marker, and how many retired ones are removed with it. -/
def popToMarker : List (Option FEntry) → List (Option FEntry) × Nat
  | [] => ([], 0)
  | none :: l => (l, 0)
  | some e :: l => ((popToMarker l).1, (popToMarker l).2 + if e.active then 0 else 1)

/-- parser/engine.py:5222-5236 `_clear_active_formatting_to_marker`. -/
def clearToMarker (refresh : Bool) : EM Unit := do
  modS fun s => { s with fmt := (popToMarker s.fmt.reverse).1.reverse, fmtRetired := s.fmtRetired - (popToMarker s.fmt.reverse).2 }
  if refresh then refreshDirty else pure ()

/-- `for idx in range(len(active) - 1, -1, -1)`: the first entry with `hit`; a marker ends the search if `stop`. -/
def scanFmt (l : List (Option FEntry)) (hit : FEntry → Bool) (stop : Bool) : Nat → Option Nat
  | 0 => none
  | i + 1 =>
    match l.getD i none with
    | none => if stop then none else scanFmt l hit stop i
    | some e => if hit e then some i else scanFmt l hit stop i

/-- parser/engine.py:5629-5640 `_find_active_formatting_index`. -/
def St.fmtFind (s : St) (name : Str) : Option Nat := scanFmt s.fmt (fun e => e.active && e.name = name) true s.fmt.length

/-- parser/engine.py:5642-5648 `_find_active_formatting_index_by_node`. -/
def St.fmtByNode (s : St) (node : Nat) : Option Nat := scanFmt s.fmt (fun e => e.active && e.node = node) false s.fmt.length

/-- The entries after the last marker (the last `_FormattingSegment`). -/
def St.segment (s : St) : List FEntry := ((s.fmt.reverse.takeWhile Option.isSome).reverse).filterMap id

/-- Equality of two signatures: `frozenset(attrs.items())`. -/
def sameSig (a b : Attrs) : Bool := a.length = b.length && a.all fun p => b.contains p

/-- The oldest of some entries. -/
def oldest : List FEntry → Option FEntry
  | [] => none
  | e :: l => match oldest l with | none => some e | some f => if e.eid < f.eid then some e else some f

/-- parser/engine.py:5650-5655 `_find_active_formatting_duplicate`. -/
def St.fmtDuplicate (s : St) (name : Str) (sig : Attrs) : Option FEntry :=
  let same := s.segment.filter fun e => e.active && e.name = name && sameSig e.sig sig
  if same.length = 3 then oldest same else none

/-- `entry.active = False`. -/
def deactivate (eid : Nat) (e : Option FEntry) : Option FEntry := e.map fun e => if e.eid = eid then { e with active := false } else e

/-- Is the last entry this one? -/
def lastIs (l : List (Option FEntry)) (eid : Nat) : Bool := match l.getLast? with | some (some e) => e.eid = eid | _ => false

/-- parser/engine.py:5657-5684 `_retire_active_formatting_entry`. -/
def retire (eid : Nat) : EM Unit := modS fun s =>
  if lastIs s.fmt eid then { s with fmt := s.fmt.dropLast }
  else { s with fmt := s.fmt.map (deactivate eid), fmtRetired := s.fmtRetired + 1 }

/-- parser/engine.py:5657-5684 `_retire_active_formatting_entry`, for the entry at index `i`. -/
def retireAt (i : Nat) : EM Unit := modS fun s =>
  if i + 1 = s.fmt.length then { s with fmt := s.fmt.dropLast }
  else { s with fmt := s.fmt.set i ((s.fmt.getD i none).map fun e => { e with active := false }), fmtRetired := s.fmtRetired + 1 }

/-- Does an entry survive compaction? -/
def keepEntry (e : Option FEntry) : Bool := match e with | none => true | some e => e.active

/-- parser/engine.py:5686-5691 `_compact_active_formatting_if_needed`, with the test of 5545. -/
def compactFmt : EM Unit :=
  whQ (fun _ s => 64 ≤ s.fmtRetired && s.fmt.length ≤ s.fmtRetired * 2) (modS fun s => { s with fmt := s.fmt.filter keepEntry, fmtRetired := 0 })

/-- parser/engine.py:5693-5701 `_remove_last_active_formatting_by_name`. -/
def removeFmtByName (name : Str) : EM Unit := do
  let e ← q fun _ s => (s.fmtFind name).bind fun i => s.fmt.getD i none
  match e with
  | none => pure ()
  | some e => retire e.eid

/-- parser/engine.py:5703-5707 `_remove_last_open_element_by_name`. -/
def removeOpenByName (name : Str) : EM Unit := do
  let i ← q fun _ s => s.findOpen name
  match i with
  | none => pure ()
  | some i => do
    markDirty
    modS fun s => { s with stack := s.stack.eraseIdx i }

/-! ### Closing elements -/

/-- `mark_active_formatting_dirty(); del stack[i:]`. -/
def cutAt (i : Nat) : EM Unit := do
  markDirty
  modS fun s => s.cut i

/-- `mark_active_formatting_dirty(); stack.pop()`. -/
def popDirty : EM Unit := do
  markDirty
  modS St.pop

/-- parser/engine.py:5013-5017 `_close_until`. -/
def closeUntil (name : Str) : EM Unit := do
  match ← q fun _ s => s.findOpen name with
  | none => pure ()
  | some i => cutAt i

/-- parser/engine.py:5019-5023 `_close_html_until`. -/
def closeHtmlUntil (name : Str) : EM Unit := do
  match ← q fun _ s => s.findOpenHtml name with
  | none => pure ()
  | some i => cutAt i

/-- parser/engine.py:5025-5044 `_close_until_before_boundary`: the scan. -/
def St.closeIdx (s : St) (name : Str) (names : List Str) : Option Nat :=
  s.lastIdxStop (fun n => n.name = name) (fun n => openHtml n.ns && names.contains n.name)

/-- parser/engine.py:5025-5044 `_close_until_before_boundary`. -/
def closeBefore (name : Str) (names : List Str) : EM Bool := do
  match ← q fun _ s => s.closeIdx name names with
  | none => pure false
  | some i =>
    iteQ (fun _ s => s.ctxNode = some (s.stack.getD i 0)) (pure false) (do
      cutAt i
      pure true)

/-- `_close_until_before_boundary` where the answer is not used. -/
def closeBefore' (name : Str) (names : List Str) : EM Unit := do
  let _ ← closeBefore name names

/-- `while len(stack) > 1 and p(stack[-1]): stack.pop()`, on the reversed stack. -/
def popW (p : Nat → Bool) : List Nat → List Nat
  | [] => []
  | [x] => [x]
  | x :: y :: l => if p x then popW p (y :: l) else x :: y :: l

/-- `while len(stack) > 1 and p(stack[-1]): stack.pop()`. -/
def St.popWhile (s : St) (p : Nat → Bool) : St := { s with stack := (popW p s.stack.reverse).reverse }

/-- parser/engine.py:5046-5054 `_generate_implied_end_tags`. -/
def impliedEnds (exclude : Option Str) : EM Unit := do
  whQ (fun _ s => 1 < s.stack.length && impliedEnd.contains s.topName && some s.topName ≠ exclude) markDirty
  modS fun s => s.popWhile fun i => impliedEnd.contains (s.n i).name && some (s.n i).name ≠ exclude

/-- parser/engine.py:5056-5067 `_close_open_li_for_start`. -/
def closeLi : EM Unit := do
  match ← q fun _ s => s.lastIdxStop (fun n => n.name = c%"li")
      (fun n => specialNode n && ![c%"address", c%"div", c%"p"].contains n.name) with
  | none => pure ()
  | some i => do
    impliedEnds (some c%"li")
    cutAt i

/-- parser/engine.py:4302-4313 `_pop_foreign_for_breakout`. -/
def popForeign : EM Unit := fun C s =>
  ((), s.popWhile fun i =>
    !openHtml (s.n i).ns && s.ctxNode ≠ some i && !htmlPoint C.E.U (s.n i) && !mathPoint (s.n i))

/-- parser/engine.py:5069-5112 `_repair_stack_for_start`. -/
def repairStack (name : Str) : EM Unit := do
  whQ (fun C s => pClosing.contains name && !(name = c%"table" && s.quirks = .quirks) && (s.inScope C.E.U c%"p" pScope).isSome)
    (closeBefore' c%"p" pScope)
  if name = c%"li" then closeLi
  else if name = c%"dd" || name = c%"dt" then do
    closeBefore' c%"dd" ddScope
    closeBefore' c%"dt" ddScope
  else if name = c%"option" then
    whQ (fun _ s => 1 < s.stack.length && s.topName = c%"option") popDirty
  else if name = c%"optgroup" then do
    whQ (fun _ s => 1 < s.stack.length && s.topName = c%"option") popDirty
    whQ (fun _ s => (s.findOpen c%"select").isSome && 1 < s.stack.length && s.topName = c%"optgroup") popDirty
  else if headings.contains name then do
    popForeign
    whQ (fun _ s => headings.contains s.topName) popDirty
  else pure ()

/-- parser/engine.py:5194-5204 `_close_stray_table_content_to_section`. -/
def closeStray : EM Unit := do
  match ← q fun _ s => s.lastIdxStop (fun n => tableSections.contains n.name)
      (fun n => n.name = c%"table" || tableCells.contains n.name || n.name = c%"tr") with
  | none => pure ()
  | some i => whQ (fun _ s => i + 1 < s.stack.length) (cutAt (i + 1))

/-- parser/engine.py:5206-5216 `_close_table_cell`. -/
def closeCell : EM Unit := do
  match ← q fun _ s => s.lastIdxStop (fun n => tableCells.contains n.name) (fun n => n.name = c%"table") with
  | none => pure ()
  | some i => do
    markDirty
    clearToMarker true
    modS fun s => s.cut i

/-! ### Inserting elements -/

/-- parser/engine.py:381-383 `_is_hidden_input`. -/
def hiddenInput (U : Uni) (name : Str) (attrs : Attrs) : Bool :=
  name = c%"input" && (match attrs.lookup c%"type" with | some (some v) => U.lower v = c%"hidden" | _ => false)

/-- `"svg" if name == "svg" else "math" if name == "math" else "html"`. -/
def nsOfStart (name : Str) : Str := if name = c%"svg" then c%"svg" else if name = c%"math" then c%"math" else c%"html"

/-- parser/engine.py:4315-4319 `_is_foreign_breakout_start`. -/
def breakoutStart (U : Uni) (name : Str) (attrs : Attrs) : Bool :=
  breakout.contains name || (name = c%"font" && attrs.any fun p => [c%"color", c%"face", c%"size"].contains (U.lower p.1))

/-- parser/engine.py:4321-4339 `_namespace_for_raw_start`. -/
def nsForStart (name : Str) (attrs : Attrs) : EM Str :=
  iteQ (fun _ s => !openHtml (s.n s.top).ns)
    (iteQ (fun C s => htmlPoint C.E.U (s.n s.top) || (mathPoint (s.n s.top) && name ≠ c%"mglyph" && name ≠ c%"malignmark"))
      (pure (nsOfStart name))
      (iteQ (fun _ s => (s.n s.top).ns = some c%"math" && (s.n s.top).name = c%"annotation-xml" && name = c%"svg")
        (pure c%"svg")
        (iteQ (fun C _ => !breakoutStart C.E.U name attrs)
          (q fun _ s => (s.n s.top).ns.getD c%"html")
          (do
            popForeign
            pure (nsOfStart name)))))
    (pure (nsOfStart name))

/-- parser/engine.py:4341-4352 `_raw_start_uses_html_text_parsing`. -/
def usesHtmlText (name : Str) (C : Cfg) (s : St) : Bool :=
  openHtml (s.n s.top).ns || htmlPoint C.E.U (s.n s.top) || (mathPoint (s.n s.top) && name ≠ c%"mglyph" && name ≠ c%"malignmark")

/-- parser/engine.py:4357-4373: the adjusted name of one foreign attribute. -/
def foreignAttrName (U : Uni) (ns : Str) (key : Str) : Str :=
  let lower := U.lower key
  let adjusted := if ns = c%"math" then mathAttrAdjust.lookup lower else if ns = c%"svg" then svgAttrAdjust.lookup lower else none
  let lower := match adjusted with | some n => U.lower n | none => lower
  match foreignAttrAdjust.lookup lower with
  | some (some p, l) => p ++ c%":" ++ l
  | some (none, l) => l
  | none => adjusted.getD key

/-- parser/engine.py:4354-4374 `_prepare_foreign_attrs`. -/
def prepareForeign (U : Uni) (ns : Str) (attrs : Attrs) : Attrs :=
  attrs.foldl (fun acc p => let k := foreignAttrName U ns p.1; if acc.any (fun x => x.1 = k) then acc else acc ++ [(k, p.2)]) []

/-- Link a new node: under `parent`, or where foster parenting puts it (parser/engine.py:4198-4211, 4265-4278). -/
def placeNew (parent : Nat) (foster : Option (Nat × Nat)) (node : Nat) : EM Unit := modS fun s =>
  match foster with
  | none => s.linkLast (s.older parent node) node
  | some (g, i) => s.insertAt g i node

/-- parser/engine.py:1935-1938 `_enter_template_mode`. -/
def enterTemplate : EM Unit := do
  modS fun s => { s with tmodes := s.tmodes ++ [.initial], mTpl := true }
  pushMarker

/-- parser/engine.py:4128-4147: the new element is put into the tree. -/
def placeCompiled (name : Str) (attrs : Attrs) (parent : Nat) : EM Nat := do
  let node ← alloc (elementNode name attrs (some c%"html"))
  whQ (fun _ _ => name = c%"selectedcontent") (modS fun s => { s with hasSelected := true })
  let foster ← q fun C s =>
    if fosterTargets.contains (s.n parent).name && !C.plan.tableAllowedChildren.contains name then fosterFor parent (some name) C s else none
  placeNew parent foster node
  pure node

/-- parser/engine.py:4121-4151 `_insert_compiled_safe_element`. -/
def insertCompiled (name : Str) (attrs : Attrs) (parent : Nat) : EM Nat := do
  let node ← placeCompiled name attrs parent
  whQ (fun _ _ => !htmlVoids.contains name) (push node)
  pure node

/-- parser/engine.py:4178-4187, 4251-4254: the new element, of the class that goes with its name. -/
def newElement (name : Str) (attrs : Attrs) (ns : Str) : EM Nat :=
  iteQ (fun _ _ => name = c%"template" && ns = c%"html") (allocTemplate name attrs) (alloc (elementNode name attrs (some ns)))

/-- parser/engine.py:4212-4221: what is recorded about a new element of a safe parse. -/
def recordSafe (name ns : Str) (parent node : Nat) : EM Unit :=
  iteQ (fun _ _ => ns ≠ c%"html")
    (do
      modS fun s => { s with foreignSeen := true }
      noteUnwrap node
      whQ (fun C s => (s.ctxNode = some parent || isHtmlNs (s.n parent).ns) && s.poDepth = 0 &&
          (s.ctxNode = some parent || C.plan.allowedTags.contains (s.n parent).name))
        (noteDrop node))
    (whQ (fun C _ => !C.plan.allowedTags.contains name) (noteUnwrap node))

/-- parser/engine.py:4173-4175, 4289-4300: the adjusted attributes of a new element. -/
def startAttrs (C : Cfg) (name ns : Str) (attrs : Attrs) : Attrs :=
  let attrs := if ns = c%"svg" || ns = c%"math" then prepareForeign C.E.U ns attrs else attrs
  if !C.plan.rawMode && ns = c%"html" then sanitizeAttrs C (C.plan.action name) attrs else attrs

/-- parser/engine.py:4178-4221 (and 4251-4278): the new element is put into the tree and recorded. -/
def placeEl (name : Str) (attrs : Attrs) (ns : Str) (parent : Nat) : EM Nat := do
  let node ← newElement name attrs ns
  whQ (fun _ _ => name = c%"selectedcontent") (modS fun s => { s with hasSelected := true })
  let foster ← q fun C s =>
    if fosterTargets.contains (s.n parent).name && !C.plan.tableAllowedChildren.contains name && !hiddenInput C.E.U name attrs then
      fosterFor parent (some name) C s
    else none
  placeNew parent foster node
  whQ (fun C _ => !C.plan.rawMode) (recordSafe name ns parent node)
  pure node

/-- parser/engine.py:4222-4236 (and 4279-4287): it is opened. -/
def openEl (name ns : Str) (sc : Bool) (node : Nat) : EM Unit :=
  whQ (fun _ _ => !(if ns = c%"html" then htmlVoids.contains name else sc)) (do
    push node
    whQ (fun _ _ => name = c%"template" && ns = c%"html") enterTemplate
    whQ (fun _ _ => ns = c%"html" && (tableCells.contains name || markerTags.contains name)) pushMarker)

/-- The name of a new element in a namespace. -/
def elName (ns name : Str) : Str := if ns = c%"svg" then adjust svgTagAdjust name else name

/-- parser/engine.py:4153-4236 `_insert_sanitized_element` and 4240-4280 `_insert_raw_element` (which is the same without records). -/
def insertEl (name : Str) (attrs : Attrs) (sc : Bool) (parent : Nat) : EM Nat := do
  let ns ← nsForStart name attrs
  let attrs ← q fun C _ => startAttrs C (elName ns name) ns attrs
  let parent ← q fun _ s => if !isHtmlNs (s.n parent).ns && !s.stack.contains parent then s.curParent else parent
  let node ← placeEl (elName ns name) attrs ns parent
  openEl (elName ns name) ns sc node
  pure node

/-- `self._insert_sanitized_element(name, attrs, self_closing, self._current_parent())`. -/
def insertHere (name : Str) (attrs : Attrs) (sc : Bool) : EM Nat := do
  let p ← q fun _ s => s.curParent
  insertEl name attrs sc p

/-- The same where the new node is not used. -/
def insertHere' (name : Str) (attrs : Attrs) (sc : Bool) : EM Unit := do
  let _ ← insertHere name attrs sc

/-! ### Reconstruction and the adoption agency -/

/-- parser/engine.py:5711-5716: the last entry that is a marker or active. -/
def fmtLast (l : List (Option FEntry)) : Nat → Option Nat
  | 0 => none
  | i + 1 => if keepEntry (l.getD i none) then some i else fmtLast l i

/-- parser/engine.py:5724-5730: the entry after the last one that is a marker or open. -/
def fmtFrom (s : St) : Nat → Nat
  | 0 => 0
  | i + 1 =>
    if (match s.fmt.getD i none with | none => true | some e => e.active && s.stack.contains e.node) then i + 1 else fmtFrom s i

/-- parser/engine.py:5711-5730: where reconstruction starts, if there is anything to do. -/
def St.reconStart (s : St) : Option Nat :=
  match fmtLast s.fmt s.fmt.length with
  | none => none
  | some i => match s.fmt.getD i none with | none => none | some _ => some (fmtFrom s (i + 1))

/-- `entry.node = node` for the entry at index `i`. -/
def setEntryNode (i node : Nat) : EM Unit := modS fun s =>
  { s with fmt := s.fmt.set i ((s.fmt.getD i none).map fun e => { e with node := node }) }

/-- parser/engine.py:5732-5741: the loop over the entries; `n` of them are left. -/
def reconLoop : Nat → Nat → EM Unit
  | 0, _ => pure ()
  | n + 1, i => do
    match ← q fun _ s => s.fmt.getD i none with
    | none => pure ()
    | some e =>
      whQ (fun _ _ => e.active) (do
        let node ← insertHere e.name e.attrs false
        setEntryNode i node)
    reconLoop n (i + 1)

/-- parser/engine.py:5709-5742 `_reconstruct_active_formatting`. -/
def reconstruct : EM Unit := do
  match ← q fun _ s => s.reconStart with
  | none => pure ()
  | some i => do
    let n ← q fun _ s => s.fmt.length - i
    reconLoop n i
  modS fun s => { s with fmtDirty := false }

/-- `if self._active_formatting_dirty: self._reconstruct_active_formatting()`. -/
def reconIfDirty : EM Unit := whQ (fun _ s => s.fmtDirty) reconstruct

/-- parser/engine.py:5936-5942 `_clone_formatting_entry`. -/
def cloneEntry (e : FEntry) : EM Nat := do
  let node ← alloc (elementNode e.name e.attrs (some c%"html"))
  whQ (fun C _ => !C.plan.rawMode && !C.plan.allowedTags.contains e.name) (noteUnwrap node)
  pure node

/-- parser/engine.py:5918-5924 `_has_node_in_scope`. -/
def St.nodeInScope (s : St) (target : Nat) (names : List Str) : Bool :=
  match indexOf? s.stack target with
  | none => false
  | some 0 => false
  | some t => match s.lastIdx fun n => names.contains n.name with | none => true | some b => b ≤ t

/-- parser/engine.py:5795-5802: the furthest block. -/
def St.furthest (s : St) (fsi : Nat) : Option Nat :=
  (s.stack.drop (fsi + 1)).findIdx? (fun i => (s.n i).name ≠ c%"dialog" && specialNode (s.n i)) |>.map (· + (fsi + 1))

/-- parser/engine.py:5819-5857: the inner loop of the adoption agency; the bookmark and the last node. -/
def adoptInner (fe fb : Nat) : Nat → Nat → Nat → Nat → EM (Nat × Nat)
  | 0, _, bm, last => pure (bm, last)
  | i + 1, k, bm, last => do
    let s ← getS
    if s.stack.getD i 0 = fe then pure (bm, last)
    else
      match s.fmtByNode (s.stack.getD i 0) with
      | none => do
        markDirty
        modS fun s => { s with stack := s.stack.eraseIdx i }
        adoptInner fe fb i (k + 1) bm last
      | some j =>
        match s.fmt.getD j none with
        | none => pure (bm, last)
        | some e =>
          if k + 1 > 3 then do
            retireAt j
            markDirty
            modS fun s => { s with stack := s.stack.eraseIdx i }
            adoptInner fe fb i (k + 1) (if j < bm then bm - 1 else bm) last
          else do
            let node ← cloneEntry e
            setEntryNode j node
            modS fun s => { s with stack := s.stack.set i node }
            modS fun s => (s.detach last).appendMoved node last
            adoptInner fe fb i (k + 1) (if last = fb then j + 1 else bm) node

/-- parser/engine.py:5861-5866: below the parser's own templates. -/
def skipPo (s : St) : Nat → Nat
  | 0 => 0
  | i + 1 => if (s.n (s.stack.getD (i + 1) 0)).ns = poNs then skipPo s i else i + 1

/-- parser/engine.py:5859-5866: the common ancestor. -/
def St.commonAncestor (s : St) (fsi : Nat) : Nat :=
  if (s.n (s.stack.getD (fsi - 1) 0)).ns = poNs then s.stack.getD (skipPo s (fsi - 2)) 0 else s.stack.getD (fsi - 1) 0

/-- parser/engine.py:5878-5882: move all children of `a` to `b`. -/
def St.moveChildren (s : St) (a b : Nat) : St :=
  ((s.n a).children).foldl (fun s c => s.appendMoved b c) (s.upd a fun n => { n with children := [] })

/-- parser/engine.py:5867-5873: put the last node under the common ancestor. -/
def placeLast (fsi last : Nat) : EM Unit := do
  let anc ← q fun _ s => s.commonAncestor fsi
  modS fun s => s.detach last
  let foster ← q fun C s => fosterFor anc (some (s.n last).name) C s
  modS fun s => match foster with
    | none => s.appendMoved anc last
    | some (g, i) => s.insertMoved g i last

/-- parser/engine.py:5886-5902: the entry is replaced by one for the new element at the bookmark. -/
def replaceEntry (e : FEntry) (node bm : Nat) : EM Unit := do
  retire e.eid
  modS fun s =>
    { s with
      fmt := s.fmt.take (bm - 1) ++ some { e with eid := s.fmtNext, node := node, active := true } :: s.fmt.drop (bm - 1)
      fmtNext := s.fmtNext + 1 }

/-- parser/engine.py:5815-5912: the rest of one round. -/
def adoptBody (fi : Nat) (e : FEntry) (fsi fbi : Nat) : EM Unit := do
  let fb ← q fun _ s => s.stack.getD fbi 0
  let r ← adoptInner e.node fb fbi 0 (fi + 1) fb
  placeLast fsi r.2
  let node ← cloneEntry e
  modS fun s => s.moveChildren fb node
  modS fun s => s.appendMoved fb node
  replaceEntry e node r.1
  markDirty
  modS fun s => { s with stack := s.stack.erase e.node }
  modS fun s => match indexOf? s.stack fb with
    | none => s
    | some i => { s with stack := s.stack.take (i + 1) ++ node :: s.stack.drop (i + 1) }
  refreshDirty

/-- parser/engine.py:5767-5912: one round of the adoption agency; the answer is whether to go on. -/
def adoptOnce (subject : Str) : EM Bool := do
  let s ← getS
  match s.fmtFind subject with
  | none => do
    whQ (fun _ s => s.topName = subject) (closeUntil subject)
    pure false
  | some fi =>
    match s.fmt.getD fi none with
    | none => pure false
    | some e =>
      if s.top = e.node then do
        modS St.pop
        retire e.eid
        pure false
      else
        match indexOf? s.stack e.node with
        | none => do
          retire e.eid
          refreshDirty
          pure false
        | some fsi =>
          if !s.nodeInScope e.node defaultScope then pure false
          else
            match s.furthest fsi with
            | none => do
              cutAt fsi
              retire e.eid
              refreshDirty
              pure false
            | some fbi => do
              adoptBody fi e fsi fbi
              pure true

/-- parser/engine.py:5767 `for _ in range(8)`. -/
def adoptLoop (subject : Str) : Nat → EM Unit
  | 0 => pure ()
  | n + 1 => do
    let go ← adoptOnce subject
    if go then adoptLoop subject n else pure ()

/-- parser/engine.py:5754-5766: the last entry, if it is active, has this name and is the current node. -/
def St.adoptFast (s : St) (subject : Str) : Option FEntry :=
  match s.fmt.getLast? with
  | some (some e) => if e.active && e.name = subject && s.top = e.node then some e else none
  | _ => none

/-- parser/engine.py:5744-5912 `_adoption_agency`. -/
def adoption (subject : Str) : EM Unit := do
  match ← q fun _ s => s.adoptFast subject with
  | some e => do
    modS St.pop
    retire e.eid
  | none => adoptLoop subject 8

/-! ### Templates, tables and foreign end tags -/

/-- parser/engine.py:1914-1933 `_start_parser_only_template`. -/
def startPoTemplate : EM Unit := do
  iteQ (fun C s => !C.fragment && s.head.isSome && !s.bodyExplicit && !s.bodySeen && !s.bodyHasContent && s.poDepth = 0)
    (do
      stackToHead
      modS fun s => { s with afterHead := false, explicitHead := true })
    (repairStack c%"template")
  let p ← q fun _ s => s.curParent
  appendBoundary p
  let t ← alloc (elementNode c%"template" [] poNs)
  push t
  modS fun s => { s with poDepth := s.poDepth + 1, tmodes := s.tmodes ++ [.initial], mParserTpl := true, mTpl := true }
  pushMarker

/-- parser/engine.py:1947-1954: the children of one of the parser's own templates go to the node below it. -/
def spillPo (node parent : Nat) : EM Unit := modS fun s => ((s.n node).children).foldl (fun s c => s.append parent c) s

/-- parser/engine.py:1955-1966: what closing one of the parser's own templates does first. -/
def closePo (idx : Nat) : EM Unit := do
  let node ← q fun _ s => s.stack.getD idx 0
  let parent ← q fun _ s => s.slot (s.stack.getD (idx - 1) 0)
  whQ (fun _ s => !(s.n node).children.isEmpty) (spillPo node parent)
  appendBoundary parent
  modS fun s => s.cut idx
  modS fun s => { s with poDepth := s.poDepth - 1, mParserTpl := if s.poDepth = 1 then false else s.mParserTpl }

/-- parser/engine.py:1940-1972 `_close_open_template`. -/
def closeTemplate : EM Bool := do
  match ← q fun _ s => s.openTemplate with
  | none => pure false
  | some i => do
    iteQ (fun _ s => (s.n (s.stack.getD i 0)).ns = poNs) (closePo i) (modS fun s => s.cut i)
    whQ (fun _ s => !s.tmodes.isEmpty)
      (modS fun s => { s with tmodes := s.tmodes.dropLast, mTpl := if s.tmodes.length = 1 then false else s.mTpl })
    let d ← q fun _ s => s.fmtDirty
    clearToMarker d
    pure true

/-- parser/engine.py:1405-1441 `_end_tag_stays_in_foreign_context`: the innermost open element of that name, adjusted or not. -/
def St.foreignTarget (s : St) (name : Str) : Option Nat :=
  match s.findOpen name, (if adjust svgTagAdjust name ≠ name then s.findOpen (adjust svgTagAdjust name) else none) with
  | t, none => t
  | none, some a => some a
  | some t, some a => if a > t then some a else some t

/-- parser/engine.py:1405-1441 `_end_tag_stays_in_foreign_context`. -/
def endStaysForeign (name : Str) : EM Bool := do
  let C ← cfg
  let s ← getS
  if openHtml (s.n s.top).ns || name = c%"br" || name = c%"p" then pure false
  else
    let h := s.lastIdx fun n => isHtmlNs n.ns
    match s.foreignTarget name with
    | none => pure h.isNone
    | some t =>
      if bothLt (some t) h then pure false
      else
        let node := s.stack.getD t 0
        let isHtml := openHtml (s.n node).ns
        if isHtml && bothLt (some t) (s.lastIdx fun n => !openHtml n.ns && foreignBoundary C.E.U n) then pure true
        else if s.ctxNode = some node then pure true
        else if isHtml then pure false
        else do
          modS fun s => s.cut t
          pure true

/-- `for section in _TABLE_SECTION_TAGS: self._close_until_before_boundary(section, _TABLE_CONTEXT_BOUNDARIES)`. -/
def closeSections : EM Unit := do
  closeBefore' c%"tbody" tableScope
  closeBefore' c%"thead" tableScope
  closeBefore' c%"tfoot" tableScope

/-- `if table_idx is not None: mark dirty; del stack[table_idx + 1:]`. -/
def cutAfter (i : Option Nat) : EM Unit :=
  match i with
  | none => pure ()
  | some i => cutAt (i + 1)

/-- parser/engine.py:5115-5119: an open `select` inside the table is closed. -/
def closeSelectInTable : EM Unit := do
  match ← q fun _ s => (s.findOpen c%"table", s.findOpen c%"select") with
  | (some t, some i) => if i > t then cutAt i else pure ()
  | _ => pure ()

/-- parser/engine.py:5168-5192: the part for `td` and `th`. -/
def repairForCell : EM Unit := do
  closeCell
  closeStray
  match ← q fun C s => s.inScope C.E.U c%"tr" tableScope with
  | none => pure ()
  | some i => whQ (fun _ s => i + 1 < s.stack.length) (cutAt (i + 1))
  let pn ← q fun _ s => s.parentName
  if pn = c%"tr" then pure ()
  else if pn = c%"table" then do
    insertHere' c%"tbody" [] false
    insertHere' c%"tr" [] false
  else if tableSections.contains pn then insertHere' c%"tr" [] false
  else do
    match ← q fun _ s => s.findOpen c%"table" with
    | none => pure ()
    | some t => do
      cutAt (t + 1)
      insertHere' c%"tbody" [] false
      insertHere' c%"tr" [] false

/-- parser/engine.py:5153-5166: the part for `tr`. -/
def repairForRow (table : Option Nat) : EM Unit := do
  closeCell
  closeBefore' c%"tr" tableScope
  closeStray
  let pn ← q fun _ s => s.parentName
  if pn = c%"table" then insertHere' c%"tbody" [] false
  else if tableSections.contains pn then pure ()
  else
    match table with
    | none => pure ()
    | some t => do
      cutAt (t + 1)
      insertHere' c%"tbody" [] false

/-- parser/engine.py:5114-5192 `_repair_table_for_start`. -/
def repairTable (name : Str) : EM Unit := do
  let table ← q fun _ s => s.findOpen c%"table"
  closeSelectInTable
  if name = c%"col" || name = c%"colgroup" then do
    closeCell
    closeBefore' c%"tr" tableScope
    closeSections
    whQ (fun _ s => table.isSome && s.parentName ≠ c%"table" && s.parentName ≠ c%"colgroup") (cutAfter table)
    whQ (fun _ s => name = c%"col" && s.parentName = c%"table") (do
      insertHere' c%"colgroup" [] false
      setColgroup true)
  else if name = c%"caption" || tableSections.contains name then do
    closeCell
    closeBefore' c%"tr" tableScope
    closeSections
    whQ (fun _ s => s.parentName ≠ c%"table") (cutAfter table)
  else if name = c%"tr" then repairForRow table
  else if tableCells.contains name then repairForCell
  else pure ()

/-- parser/engine.py:4550-4562 `_close_to_fragment_context`. -/
def closeToContext : EM Bool := do
  match ← q fun _ s => s.ctxNode.bind fun c => indexOf? s.stack c with
  | none => pure false
  | some i => do
    whQ (fun _ s => i + 1 < s.stack.length) (cutAt (i + 1))
    pure true

/-- parser/engine.py:4564-4577 `_allows_nested_fragment_table_start`. -/
def nestedTableStart (name : Str) (s : St) : Bool :=
  tableStructure.contains name &&
  ((name = c%"table" && tableCells.contains s.parentName) ||
   (match s.ctxNode.bind fun c => indexOf? s.stack c with
    | none => false
    | some i => (s.stack.drop (i + 1)).any fun j => (s.n j).name = c%"table"))

end JH.Eng
