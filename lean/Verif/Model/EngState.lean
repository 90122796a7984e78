import Verif.Model.EngConst
import Verif.Model.Entities
import Verif.Model.Sanitize
import Verif.Model.Stream
import Verif.Model.DomHeap

/-! Model of /repo/src/justhtml/parser/engine.py: the execution plan, the state of a `ParseEngine`, and the queries on the open-elements stack.

Nodes are cells of a heap named by their index; the open-elements stack is the plain list of its nodes, bottom first (C41 proves that the
indexed `_CountingStack` answers every query like a scan of that list). Not modelled: source positions of nodes and tags, error collection
and XML coercion. A lone surrogate is not a `Char`, so `_normalize_surrogate_pairs` is the identity. -/
namespace JH.Eng

/-- parser/engine.py:412-436 `TagAction` (the fields that are used); `urlAttr` is the mapping `url_attrs`. -/
structure TagAction where
  name : Str
  allowed : Bool
  allowedAttrs : List Str
  stateAttrs : List Str
  urlAttr : Str → Option (SinkKind × UrlRule × Option Bool)
  scanAttrs : Bool
  simpleEnd : Bool
  simpleStart : Bool
  preserveState : Bool
  activeFormatting : Bool
  blocksFrameset : Bool
  dropContent : Bool
  dropSubtree : Bool
  headContent : Bool
  pClosing : Bool
  plaintext : Bool
  preLinefeed : Bool
  rawtextAsText : Bool
  rcdata : Bool
  tableCell : Bool
  tableSection : Bool
  void : Bool

/-- parser/engine.py:387-404 `EnginePlan`; `action` is `tag_actions.get`. -/
structure Plan where
  rawMode : Bool
  allowedTags : List Str
  urlPolicy : UrlPolicy
  dropComments : Bool
  dropDoctype : Bool
  dropContentTags : List Str
  rawtextElementTags : List Str
  rawtextAsTextTags : List Str
  stripInvisible : Bool
  tableAllowedChildren : List Str
  action : Str → Option TagAction

/-- parser/engine.py:459-479: the names that get an action. -/
def knownTags (allowed dropContent dropSubtree rawAsText : List Str) : List Str :=
  allowed ++ dropContent ++ dropSubtree ++ rawAsText ++ rcdata ++ plaintextTags ++ formatting ++ headContent ++ pClosing ++ preLf ++
  tableSections ++ tableCells ++ tableStructure ++ framesetBlocking ++
  [c%"body", c%"button", c%"frameset", c%"head", c%"html", c%"image", c%"input", c%"optgroup", c%"option", c%"template", c%"tr"]

/-- parser/engine.py:493-517: the compiled URL rule of an allowed attribute. -/
def urlAction (U : Uni) (p : UrlPolicy) (rules : List ((Str × Str) × UrlRule)) (tag attr : Str) : Option (SinkKind × UrlRule × Option Bool) :=
  match urlRuleFor { p with rules := rules } tag attr with
  | none => none
  | some rule =>
    match (if isSinkAttr attr then sinkKind U tag attr [(attr, some [])] else some .url) with
    | none => none
    | some kind =>
      let fast : Option Bool :=
        if kind = .url && effHandling p rule = .allow && rule.proxy.isNone && p.proxy.isNone && p.filter.isNone && rule.hosts.isNone then
          some (effAllowRelative p rule)
        else none
      some (kind, rule, fast)

/-- parser/engine.py:448-554 `_compile_tag_actions`: the action of one name. -/
def compileAction (U : Uni) (allowed : List Str) (global : List Str) (byTag : List (Str × List Str)) (p : UrlPolicy)
    (rules : List ((Str × Str) × UrlRule)) (dropContent dropSubtree rawAsText : List Str) (tag : Str) : Option TagAction :=
  if !(knownTags allowed dropContent dropSubtree rawAsText).contains tag then none
  else
    let ok := allowed.contains tag
    let attrs := if ok then (byTag.lookup tag).getD global else []
    let state := if tag = c%"input" then [c%"type"] else if tag = c%"option" then [c%"selected"] else []
    let preserve := formatting.contains tag && !ok
    some
      { name := tag
        allowed := ok
        allowedAttrs := attrs
        stateAttrs := state
        urlAttr := fun attr => if attrs.contains attr then urlAction U p rules tag attr else none
        scanAttrs := !attrs.isEmpty || !state.isEmpty || preserve
        simpleEnd := !formatting.contains tag && !simpleEndExcl.contains tag
        simpleStart := ok && !simpleStartExcl.contains tag && !formatting.contains tag && !framesetBlocking.contains tag &&
          !dropContent.contains tag && !dropSubtree.contains tag && !headContent.contains tag && !plaintextTags.contains tag &&
          !rawAsText.contains tag && !rcdata.contains tag && !tableCells.contains tag && !tableSections.contains tag
        preserveState := preserve
        activeFormatting := formatting.contains tag
        blocksFrameset := framesetBlocking.contains tag
        dropContent := dropContent.contains tag
        dropSubtree := dropSubtree.contains tag
        headContent := headContent.contains tag
        pClosing := pClosing.contains tag
        plaintext := plaintextTags.contains tag
        preLinefeed := preLf.contains tag
        rawtextAsText := rawAsText.contains tag
        rcdata := rcdata.contains tag
        tableCell := tableCells.contains tag
        tableSection := tableSections.contains tag
        void := voids.contains tag }

/-- The fields of a `SanitizationPolicy` that the compiled engine reads. -/
structure SafePolicy where
  allowedTags : List Str
  allowedAttributes : List (Str × List Str)
  urlPolicy : UrlPolicy
  dropComments : Bool
  dropDoctype : Bool
  dropContentTags : List Str
  stripInvisible : Bool

/-- parser/engine.py:569-572: the global attributes and those of each tag. -/
def SafePolicy.global (p : SafePolicy) : List Str := (p.allowedAttributes.lookup c%"*").getD []

/-- parser/engine.py:572-574 `allowed_by_tag`. -/
def SafePolicy.byTag (U : Uni) (p : SafePolicy) : List (Str × List Str) :=
  (p.allowedAttributes.filter fun e => e.1 ≠ c%"*").map fun e => (U.lower e.1, p.global ++ e.2)

/-- parser/engine.py:574 -/
def rawAsTextFor (scripting : Bool) : List Str := if scripting then rawAsText else rawAsText.filter (· ≠ c%"noscript")

/-- parser/engine.py:563-600 `compile_engine_plan`. -/
def compilePlan (U : Uni) (p : SafePolicy) (scripting : Bool) : Plan :=
  { rawMode := false
    allowedTags := p.allowedTags
    urlPolicy := p.urlPolicy
    dropComments := p.dropComments
    dropDoctype := p.dropDoctype
    dropContentTags := p.dropContentTags
    rawtextElementTags := []
    rawtextAsTextTags := rawAsTextFor scripting
    stripInvisible := p.stripInvisible
    tableAllowedChildren := tableAllowed
    action := compileAction U p.allowedTags p.global (p.byTag U) p.urlPolicy p.urlPolicy.rules p.dropContentTags dropSubtreeTags
      (rawAsTextFor scripting) }

/-- sanitizer/policy_defaults.py:45-83 the tags of `DEFAULT_POLICY`. -/
def defaultTags : List Str :=
  [c%"p", c%"br", c%"div", c%"span", c%"blockquote", c%"pre", c%"code", c%"h1", c%"h2", c%"h3", c%"h4", c%"h5", c%"h6", c%"ul", c%"ol",
   c%"li", c%"table", c%"caption", c%"thead", c%"tbody", c%"tfoot", c%"tr", c%"th", c%"td", c%"b", c%"strong", c%"i", c%"em", c%"u", c%"s",
   c%"sub", c%"sup", c%"small", c%"mark", c%"hr", c%"a", c%"img"]

/-- sanitizer/policy_defaults.py:84-90 the attributes of `DEFAULT_POLICY`. -/
def defaultAttrs : List (Str × List Str) :=
  [(c%"*", [c%"class", c%"id", c%"title", c%"lang", c%"dir"]), (c%"a", [c%"href", c%"title"]),
   (c%"img", [c%"src", c%"alt", c%"title", c%"width", c%"height", c%"loading", c%"decoding"]),
   (c%"th", [c%"colspan", c%"rowspan"]), (c%"td", [c%"colspan", c%"rowspan"])]

/-- sanitizer/policy_defaults.py:91-105 the URL policy of `DEFAULT_POLICY`. -/
def defaultUrls : UrlPolicy :=
  { defaultHandling := .strip
    rules := [((c%"a", c%"href"), { schemes := [c%"http", c%"https", c%"mailto", c%"tel"], handling := some .allow }),
      ((c%"img", c%"src"), { schemes := [], handling := some .allow, resolve := none })] }

/-- sanitizer/policy_defaults.py:44-107 `DEFAULT_POLICY`, with the defaults of sanitizer/policy.py:197-241. -/
def defaultPolicy : SafePolicy :=
  { allowedTags := defaultTags, allowedAttributes := defaultAttrs, urlPolicy := defaultUrls, dropComments := true, dropDoctype := true,
    dropContentTags := [c%"script", c%"style"], stripInvisible := true }

/-- sanitizer/policy_defaults.py:128-138 `DEFAULT_DOCUMENT_POLICY`. -/
def defaultDocumentPolicy : SafePolicy :=
  { defaultPolicy with allowedTags := defaultTags ++ [c%"html", c%"head", c%"body", c%"title"], dropDoctype := false }

/-- parser/engine.py:603-613 `compile_default_engine_plan`. -/
def defaultPlan (U : Uni) (fragment scripting : Bool) : Plan :=
  compilePlan U (if fragment then defaultPolicy else defaultDocumentPolicy) scripting

/-- parser/engine.py:623-655 the names of the raw plan. -/
def rawAllowed : List Str :=
  special ++ formatting ++ headings ++ headContent ++ pClosing ++ tableStructure ++ tableSections ++ tableCells ++ preLf ++ rawElems ++ rcdata ++
  plaintextTags ++ [c%"annotation-xml", c%"datalist", c%"foreignobject", c%"image", c%"math", c%"mglyph", c%"mi", c%"mn", c%"mo", c%"ms",
    c%"mtext", c%"option", c%"optgroup", c%"rb", c%"rp", c%"rt", c%"rtc", c%"selectedcontent", c%"svg"]

/-- parser/engine.py:616-683 `compile_raw_engine_plan`. -/
def rawPlan (U : Uni) (scripting : Bool) : Plan :=
  { rawMode := true
    allowedTags := rawAllowed
    urlPolicy := defaultUrls
    dropComments := false
    dropDoctype := false
    dropContentTags := []
    rawtextElementTags := if scripting then rawElems else rawElems.filter (· ≠ c%"noscript")
    rawtextAsTextTags := []
    stripInvisible := false
    tableAllowedChildren := c%"form" :: tableAllowed
    action := compileAction U rawAllowed [] [] defaultUrls [] [] [] [] }

/-! ### State -/

/-- A node (dom/__init__.py:133-215, 513-790). `children is None` is `[]`. A doctype is a `plain` node. -/
structure ENode where
  kind : Kind := .text
  name : Str := []
  ns : Option Str := none
  attrs : Attrs := []
  data : Str := []
  doctype : Option Str × Option Str × Option Str := (none, none, none)
  children : List Nat := []
  parent : Option Nat := none
  content : Option Nat := none
deriving Inhabited

/-- parser/engine.py:698-704 `_FormattingEntry`. The signature of an entry is the dict `sig` (compared as a set of items). The marker-bounded
index `_FormattingSegment` (707-720) is replaced by scans of the list: `eid` is the number of the entry in order of creation, which is the order of
the lists of the index. -/
structure FEntry where
  eid : Nat
  name : Str
  attrs : Attrs
  node : Nat
  sig : Attrs
  active : Bool

/-- The insertion modes inside a template (parser/engine.py:209-215). -/
inductive TMode
  | initial | body | table | tableBody | row | cell | colgroup
deriving DecidableEq

/-- `self._quirks_mode`: `None`, or a string. -/
inductive Quirks
  | unset | noQuirks | limited | quirks
deriving DecidableEq

/-- `self._after_document_mode` (parser/engine.py:216-217). -/
inductive After
  | no | body | html
deriving DecidableEq

/-- The constant part of a parse: parser/engine.py:1233-1330 `__init__`. `locs` is `track_node_locations`, `spans` is `track_tag_spans`. -/
structure Cfg where
  E : UrlEnv
  T : EntTables
  html : Str
  fragment : Bool
  ctxName : Option Str := none
  ctxNs : Option Str := none
  plan : Plan
  iframeSrcdoc : Bool := false
  locs : Bool := false
  spans : Bool := false
  emitBogus : Bool := false

/-- The state of a `ParseEngine` (parser/engine.py:1163-1230). `err` records that Python raised (a numeric character reference with too many
digits, C05). -/
structure St where
  heap : List ENode := []
  err : Bool := false
  doc : Nat := 0
  html : Option Nat := none
  head : Option Nat := none
  body : Nat := 0
  ctxNode : Option Nat := none
  stack : List Nat := []
  fmt : List (Option FEntry) := []
  fmtNext : Nat := 0
  fmtRetired : Nat := 0
  fmtDirty : Bool := false
  toDrop : List Nat := []
  toUnwrap : List Nat := []
  tmodes : List TMode := []
  poDepth : Nat := 0
  /-- `_mode_flags`: `_MODE_FRAMESET`, `_MODE_COLGROUP`, `_MODE_HEAD_NOSCRIPT`, `_MODE_AFTER_DOCUMENT`, `_MODE_PARSER_TEMPLATE`, `_MODE_TEMPLATE` -/
  mFrameset : Bool := false
  mColgroup : Bool := false
  mNoscript : Bool := false
  mAfter : Bool := false
  mParserTpl : Bool := false
  mTpl : Bool := false
  after : After := .no
  afterHead : Bool := false
  eofDropped : Bool := false
  explicitHead : Bool := false
  explicitHtml : Bool := false
  fosterWs : Nat := 0
  form : Option Nat := none
  framesetBlocked : Bool := false
  framesetSeen : Bool := false
  foreignSeen : Bool := false
  hasSelected : Bool := false
  headReentry : Bool := false
  ignoreLf : Bool := false
  inColgroup : Bool := false
  inNoscript : Bool := false
  quirks : Quirks := .unset
  bodyExplicit : Bool := false
  bodySeen : Bool := false

/-- A method of the engine. -/
def EM (α : Type) : Type := Cfg → St → α × St

instance : Monad EM where
  pure a := fun _ s => (a, s)
  bind m f := fun C s => match m C s with | (a, s') => f a C s'

/-- Read something. -/
def q {α : Type} (f : Cfg → St → α) : EM α := fun C s => (f C s, s)

/-- The state. -/
def getS : EM St := fun _ s => (s, s)

/-- The constants. -/
def cfg : EM Cfg := fun C s => (C, s)

/-- Assign. -/
def modS (f : St → St) : EM Unit := fun _ s => ((), f s)

/-- A node of the heap. -/
def St.n (s : St) (i : Nat) : ENode := s.heap.getD i default

/-- Assign to attributes of one node. -/
def St.upd (s : St) (i : Nat) (f : ENode → ENode) : St := { s with heap := s.heap.set i (f (s.n i)) }

/-- The namespace string of the parser's own template markers (parser/engine.py:84). -/
def poNs : Option Str := some c%"justhtml-parser-only"

/-- `namespace in {None, "html", _PARSER_ONLY_NAMESPACE}` (parser/engine.py:89). -/
def openHtml (ns : Option Str) : Bool := isHtmlNs ns || ns = poNs

/-- `self._stack[-1]`; the stack is never empty (C77). -/
def St.top (s : St) : Nat := s.stack.getLastD 0

/-- `self._stack[-1].name`. -/
def St.topName (s : St) : Str := (s.n s.top).name

/-- `list.index`. -/
def indexOf? (l : List Nat) (i : Nat) : Option Nat := l.findIdx? (· = i)

/-- `del stack[i:]`. -/
def St.cut (s : St) (i : Nat) : St := { s with stack := s.stack.take i }

/-- `stack.pop()`. -/
def St.pop (s : St) : St := { s with stack := s.stack.dropLast }

/-- `for index in range(len(stack) - 1, 0, -1)`: the first index whose node satisfies `p`. -/
def scanDownFrom (p : Nat → Bool) (l : List Nat) : Nat → Option Nat
  | 0 => none
  | i + 1 => if p (l.getD (i + 1) 0) then some (i + 1) else scanDownFrom p l i

/-- The innermost open node with `p`, never the root at index 0. -/
def St.lastIdx (s : St) (p : ENode → Bool) : Option Nat := scanDownFrom (fun i => p (s.n i)) s.stack (s.stack.length - 1)

/-- The same scan, which stops with `None` at a node satisfying `stop`. -/
def scanStopFrom (hit stop : Nat → Bool) (l : List Nat) : Nat → Option Nat
  | 0 => none
  | i + 1 =>
    if hit (l.getD (i + 1) 0) then some (i + 1) else if stop (l.getD (i + 1) 0) then none else scanStopFrom hit stop l i

/-- The innermost open node satisfying `hit` unless one satisfying `stop` is nearer. -/
def St.lastIdxStop (s : St) (hit stop : ENode → Bool) : Option Nat :=
  scanStopFrom (fun i => hit (s.n i)) (fun i => stop (s.n i)) s.stack (s.stack.length - 1)

/-- parser/engine.py:4427-4434 `_find_open_index` (and 805-814 `last_index_of`). -/
def St.findOpen (s : St) (name : Str) : Option Nat := s.lastIdx fun n => n.name = name

/-- parser/engine.py:4436-4444 `_find_open_html_index`. -/
def St.findOpenHtml (s : St) (name : Str) : Option Nat := s.lastIdx fun n => n.name = name && openHtml n.ns

/-- parser/engine.py:793-803 `_is_foreign_boundary`. -/
def foreignBoundary (U : Uni) (n : ENode) : Bool :=
  if n.ns = some c%"math" && n.name = c%"annotation-xml" then
    match n.attrs.find? fun p => U.lower p.1 = c%"encoding" with
    | none => false
    | some p => [c%"application/xhtml+xml", c%"text/html"].contains (U.lower (p.2.getD []))
  else htmlPoints.contains (n.ns.getD [], n.name) || (n.ns = some c%"math" && mathPoints.contains n.name)

/-- The boundary test of the scope scans (parser/engine.py:4466-4476, 894-911). -/
def scopeStop (U : Uni) (names : List Str) (n : ENode) : Bool :=
  if isHtmlNs n.ns then names.contains n.name else n.ns ≠ poNs && foreignBoundary U n

/-- parser/engine.py:4446-4481 `_find_open_index_before_boundary`. -/
def St.inScope (s : St) (U : Uni) (name : Str) (names : List Str) : Option Nat :=
  s.lastIdxStop (fun n => n.name = name) (scopeStop U names)

/-- parser/engine.py:4483-4492 `_find_open_table_scoped_end_index`. -/
def St.tableScopedEnd (s : St) (name : Str) : Option Nat :=
  s.lastIdxStop (fun n => isHtmlNs n.ns && n.name = name)
    (fun n => isHtmlNs n.ns && n.name = c%"table" || n.kind = .template && isHtmlNs n.ns)

/-- parser/engine.py:923-946 `last_template_boundary_index`: is this an open template? -/
def isTemplateBoundary (n : ENode) : Bool := n.name = c%"template" && (n.ns = poNs || (n.kind = .template && isHtmlNs n.ns))

/-- parser/engine.py:1906-1908 `_open_template_index`. -/
def St.openTemplate (s : St) : Option Nat := s.lastIdx isTemplateBoundary

/-- parser/engine.py:1891-1904 `_open_parser_only_template_index`. -/
def St.openPoTemplate (s : St) : Option Nat := s.lastIdx fun n => n.name = c%"template" && n.ns = poNs

/-- parser/engine.py:4494-4510 `_find_open_index_in_current_scope`. -/
def St.inTemplateScope (s : St) (name : Str) : Option Nat :=
  match s.findOpen name with
  | none => none
  | some t =>
    match s.lastIdx isTemplateBoundary with
    | none => some t
    | some b => if t ≥ b then some t else none

/-- parser/engine.py:4521-4527 `_find_open_heading_index`. -/
def St.openHeading (s : St) (U : Uni) : Option Nat :=
  match s.lastIdx fun n => headings.contains n.name with
  | none => none
  | some t =>
    match s.lastIdx (scopeStop U defaultScope) with
    | none => some t
    | some b => if t > b then some t else none

/-- parser/engine.py:1880-1889 `_current_parent`: the top of the stack, or below it the first node that is not one of the parser's own
templates; for a template element its content. -/
def St.curParent (s : St) : Nat :=
  let c := if (s.n s.top).ns = poNs then
      (match s.lastIdx fun n => n.ns ≠ poNs with | some i => s.stack.getD i 0 | none => s.top)
    else s.top
  if (s.n c).kind = .template then (s.n c).content.getD c else c

/-- `getattr(self._current_parent(), "name", None)`. -/
def St.parentName (s : St) : Str := (s.n s.curParent).name

/-- parser/engine.py:4415-4419 `_body_has_content`. -/
def St.bodyHasContent (s : St) : Bool :=
  (s.n s.body).children.any fun c => (s.n c).kind ≠ .text || !(s.n c).data.isEmpty

/-- parser/engine.py:4386-4394 `_is_html_integration_point` (4376-4384 `_node_attr_value`; the cache is not modelled). -/
def htmlPoint (U : Uni) (n : ENode) : Bool :=
  if n.ns = some c%"math" && n.name = c%"annotation-xml" then
    match n.attrs.find? fun p => U.lower p.1 = c%"encoding" with
    | none => false
    | some p => [c%"application/xhtml+xml", c%"text/html"].contains (U.lower (p.2.getD []))
  else htmlPoints.contains (n.ns.getD [], n.name)

/-- parser/engine.py:4396-4397 `_is_mathml_text_integration_point`. -/
def mathPoint (n : ENode) : Bool := n.ns = some c%"math" && mathPoints.contains n.name

/-- parser/engine.py:4421-4425 `_node_matches_end_name`. -/
def matchesEnd (U : Uni) (n : ENode) (name : Str) : Bool := n.name = name || (!isHtmlNs n.ns && U.lower n.name = name)

/-- parser/engine.py:5944-5945 `_is_special_node`. -/
def specialNode (n : ENode) : Bool := isHtmlNs n.ns && special.contains n.name

/-- parser/engine.py:3028-3036 (and 2731-2739): the end tags `audio`, `noscript`, `slot` and `title`. -/
def St.specialScope (s : St) (U : Uni) (name : Str) : Option Nat := s.lastIdxStop (fun n => matchesEnd U n name) specialNode

/-- parser/engine.py:4512-4519 `_template_end_tag_boundaries`. -/
def tplEndBoundaries (name : Str) (a : Option TagAction) : List Str :=
  if special.contains name || (a.map (·.pClosing)).getD false then defaultScope else generalScope

/-- parser/engine.py:1910-1912 `_current_template_mode`. -/
def St.tmode (s : St) : Option TMode := s.tmodes.getLast?

/-- parser/engine.py:4529-4531 `_set_current_template_mode`. -/
def setTMode (m : TMode) : EM Unit := modS fun s => { s with tmodes := if s.tmodes.isEmpty then [] else s.tmodes.dropLast ++ [m] }

/-- parser/engine.py:1974-1976 `_mark_initial_content`. -/
def markInitial : EM Unit := modS fun s => if s.quirks = .unset then { s with quirks := .quirks } else s

/-- parser/engine.py:1978-1983 `_set_after_document_mode`. -/
def setAfter (m : After) : EM Unit := modS fun s => { s with after := m, mAfter := m ≠ .no }

/-- parser/engine.py:1985-1990 `_set_colgroup_mode`. -/
def setColgroup (b : Bool) : EM Unit := modS fun s => { s with inColgroup := b, mColgroup := b }

/-- parser/engine.py:1992-1997 `_set_head_noscript_mode`. -/
def setNoscript (b : Bool) : EM Unit := modS fun s => { s with inNoscript := b, mNoscript := b }

/-- `self._stack = _CountingStack([self._doc, self._html, self._body])`. -/
def stackToBody : EM Unit := modS fun s => { s with stack := [s.doc, s.html.getD s.doc, s.body] }

/-- `self._stack = _CountingStack([self._doc, self._html])`. -/
def stackToHtml : EM Unit := modS fun s => { s with stack := [s.doc, s.html.getD s.doc] }

/-- `self._stack = _CountingStack([self._doc, self._html, self._head])`. -/
def stackToHead : EM Unit := modS fun s => { s with stack := [s.doc, s.html.getD s.doc, s.head.getD s.doc] }

/-- parser/engine.py:4533-4539 `_leave_head_noscript_to_body`. -/
def leaveNoscript : EM Unit := do
  setNoscript false
  if (← q fun C s => C.fragment || s.html.isNone) then return
  stackToBody
  modS fun s => { s with afterHead := false, bodySeen := true }

/-- parser/engine.py:4541-4548 `_finish_head_reentry`. -/
def finishReentry : EM Unit := do
  if (← q fun _ s => !s.headReentry || s.html.isNone || s.openTemplate.isSome) then return
  modS fun s => { s with headReentry := false }
  stackToHtml
  modS fun s => { s with afterHead := true }

/-- parser/engine.py:5914-5916 `_mark_active_formatting_dirty`. -/
def markDirty : EM Unit := modS fun s => if s.fmt.isEmpty then s else { s with fmtDirty := true }

end JH.Eng
