import Verif.Model.Css
import Verif.Model.Tree
import Verif.Model.Markup
/-! Model of the tree sanitizer: the transforms compiled from a policy (/repo/src/justhtml/transforms/compile.py), the walker that
applies them (transforms/runtime.py), raw text hardening (sanitizer/rawtext.py) and the entry points (sanitizer/dom.py).

The expression `x if x.islower() else x.lower()` of the source is modelled as `x.lower()`. -/
namespace JH

abbrev Attrs := List (Str × Option Str)

/-- `d[k] = v` on a dict given by its items (keys are unique). -/
def dictSet (k : Str) (v : Option Str) (d : Attrs) : Attrs :=
  if d.any (fun p => p.1 = k) then d.map fun p => if p.1 = k then (k, v) else p else d ++ [(k, v)]

/-- `policy.disallowed_tag_handling`. -/
inductive TagHandling
  | drop
  | unwrap
  | escape
deriving DecidableEq

/-- The fields of a normalized `SanitizationPolicy` that the sanitize transform reads (sanitizer/policy.py:148-230). -/
structure SanCfg where
  allowedTags : List Str := []
  allowedAttrs : List (Str × List Str) := []
  dropContent : List Str := []
  handling : TagHandling := .unwrap
  url : UrlPolicy := {}
  cssProps : List Str := []
  forceRel : List Str := []
  dropComments : Bool := true
  dropDoctype : Bool := true
  stripInv : Bool := true

/-! ### Attributes -/

/-- transforms/compile.py:345-354 `effective_allowed_attrs`. -/
def effAttrs (C : SanCfg) : List (Str × List Str) :=
  let a := (C.allowedAttrs.lookup c%"a").getD []
  let g := (C.allowedAttrs.lookup c%"*").getD []
  if C.forceRel.isEmpty || a.contains c%"rel" || g.contains c%"rel" then C.allowedAttrs
  else if C.allowedAttrs.any (fun p => p.1 = c%"a") then
    C.allowedAttrs.map fun p => if p.1 = c%"a" then (p.1, p.2 ++ [c%"rel"]) else p
  else C.allowedAttrs ++ [(c%"a", a ++ [c%"rel"])]

/-- transforms/compile.py:738-743 `allowed_by_tag`, built by dict assignment (so a later key wins). -/
def allowedByTag (U : Uni) (attrs : List (Str × List Str)) : List (Str × List Str) :=
  ((attrs.filter fun p => p.1 ≠ c%"*").map fun p => (U.lower p.1, (attrs.lookup c%"*").getD [] ++ p.2)).reverse

/-- transforms/compile.py:755-764: the allowed attribute names for an element. -/
def allowedFor (U : Uni) (attrs : List (Str × List Str)) (tag : Str) : List Str :=
  match (allowedByTag U attrs).lookup tag with
  | some s => s
  | none =>
    match (allowedByTag U attrs).lookup (U.lower tag) with
    | some s => s
    | none => (attrs.lookup c%"*").getD []

/-- transforms/compile.py:776-797: one attribute of the allowlist loop. -/
def allowStep (U : Uni) (allowed : List Str) (out : Attrs) (p : Str × Option Str) : Attrs :=
  if (stripP U.isSpace p.1).isEmpty then out
  else if allowed.contains p.1 then dictSet p.1 p.2 out
  else if allowed.contains (U.lower p.1) then dictSet (U.lower p.1) p.2 out
  else out

/-- transforms/compile.py:742-803 `_allowlist_attrs`. -/
def allowlistAttrs (U : Uni) (attrs : List (Str × List Str)) (tag : Str) (as : Attrs) : Attrs :=
  let allowed := allowedFor U attrs tag
  if as.all fun p => !p.1.isEmpty && allowed.contains p.1 then as else as.foldl (allowStep U allowed) []

/-- sanitizer/url/spec.py:11 `UrlSinkKind`. -/
inductive SinkKind
  | url
  | srcset
  | commaList
  | spaceList
  | refresh
deriving DecidableEq

/-- sanitizer/url/spec.py:14-28 `UrlSink`. -/
structure UrlSink where
  kind : SinkKind
  tag : Str
  attr : Str
  guard : Option (Str × List Str) := none

/-- sanitizer/url/spec.py:31-81 `_URL_SINKS`. -/
def urlSinks : List UrlSink :=
  [⟨.url, c%"*", c%"href", none⟩, ⟨.url, c%"*", c%"icon", none⟩, ⟨.url, c%"*", c%"dynsrc", none⟩, ⟨.url, c%"*", c%"lowsrc", none⟩,
   ⟨.url, c%"*", c%"src", none⟩, ⟨.srcset, c%"*", c%"srcset", none⟩, ⟨.srcset, c%"*", c%"imagesrcset", none⟩,
   ⟨.url, c%"*", c%"poster", none⟩, ⟨.url, c%"*", c%"action", none⟩, ⟨.url, c%"*", c%"formaction", none⟩, ⟨.url, c%"*", c%"data", none⟩,
   ⟨.url, c%"*", c%"cite", none⟩, ⟨.url, c%"*", c%"background", none⟩, ⟨.url, c%"*", c%"classid", none⟩, ⟨.url, c%"*", c%"code", none⟩,
   ⟨.url, c%"*", c%"codebase", none⟩, ⟨.url, c%"*", c%"longdesc", none⟩, ⟨.url, c%"*", c%"manifest", none⟩, ⟨.url, c%"*", c%"object", none⟩,
   ⟨.commaList, c%"*", c%"profile", none⟩, ⟨.url, c%"*", c%"usemap", none⟩, ⟨.commaList, c%"*", c%"archive", none⟩,
   ⟨.spaceList, c%"*", c%"ping", none⟩, ⟨.spaceList, c%"*", c%"attributionsrc", none⟩,
   ⟨.refresh, c%"meta", c%"content", some (c%"http-equiv", [c%"refresh"])⟩,
   ⟨.url, c%"param", c%"value",
     some (c%"name", [c%"code", c%"codebase", c%"data", c%"filename", c%"href", c%"movie", c%"src", c%"url"])⟩]

/-- sanitizer/url/spec.py:95-101: does the first attribute of the guard's name (with a value) have one of the guard's values? -/
def guardHolds (U : Uni) (g : Str × List Str) : Attrs → Bool
  | [] => false
  | (k, v) :: r =>
    match v with
    | some v => if U.lower k = g.1 then g.2.contains (U.lower (stripP U.isSpace v)) else guardHolds U g r
    | none => guardHolds U g r

/-- sanitizer/url/spec.py:89-102 `_url_sink_kind_for_attr`. -/
def sinkKind (U : Uni) (tag attr : Str) (as : Attrs) : Option SinkKind :=
  (urlSinks.find? fun s => s.attr = attr && (s.tag = c%"*" || s.tag = tag) &&
    (match s.guard with | none => true | some g => guardHolds U g as)).map (·.kind)

/-- `lower_key in _URL_SINK_ATTRS` (sanitizer/url/spec.py:86). -/
def isSinkAttr (attr : Str) : Bool := urlSinks.any fun s => s.attr = attr

/-- sanitizer/url/runtime.py:539-561 `_sanitize_url_sink_value`. -/
def sinkValue (E : UrlEnv) (p : UrlPolicy) (rule : UrlRule) (tag attr : Str) (kind : SinkKind) (value : Str) : Option Str :=
  match kind with
  | .url => sanitizeSimple E p rule tag attr value
  | .srcset => sanitizeSrcset E p rule tag attr value
  | .commaList => sanitizeList E true p rule tag attr value
  | .spaceList => sanitizeList E false p rule tag attr value
  | .refresh => sanitizeRefresh E p rule tag attr value

/-- transforms/compile.py:841 `allow_rules.get((tag, attr)) or allow_rules.get(("*", attr))`. -/
def urlRuleFor (p : UrlPolicy) (tag attr : Str) : Option UrlRule :=
  match p.rules.lookup (tag, attr) with
  | some r => some r
  | none => p.rules.lookup (c%"*", attr)

/-- What the URL transform does with one attribute. -/
inductive UrlAct
  | keep
  | drop
  /-- `to_set[lower_key]`, and the old key is dropped when it differs -/
  | set (v : Str)

/-- transforms/compile.py:839-897: one attribute. -/
def urlAct (E : UrlEnv) (p : UrlPolicy) (tag : Str) (as : Attrs) (key : Str) (v : Option Str) : UrlAct :=
  let lk := E.U.lower key
  match isSinkAttr lk, urlRuleFor p tag lk with
  | false, none => .keep
  | sink, rule =>
    match (if sink then sinkKind E.U tag lk as else some .url) with
    | none => .keep
    | some kind =>
      match v, rule with
      | none, _ => .drop
      | _, none => .drop
      | some v, some rule =>
        match sinkValue E p rule tag lk kind v with
        | none => .drop
        | some s => .set s

/-- transforms/compile.py:819-911 `_drop_url_attrs`: `out` without the dropped keys, updated with `to_set`. -/
def dropUrlAttrs (E : UrlEnv) (p : UrlPolicy) (name : Str) (as : Attrs) : Attrs :=
  let tag := E.U.lower name
  let kept := as.filter fun a =>
    match urlAct E p tag as a.1 a.2 with
    | .keep => true
    | .drop => false
    | .set _ => E.U.lower a.1 = a.1
  as.foldl (fun out a => match urlAct E p tag as a.1 a.2 with | .set s => dictSet (E.U.lower a.1) (some s) out | _ => out) kept

/-- transforms/compile.py:922-980 `_allow_style_attrs`; only compiled when `allowed_css_properties` is not empty (transforms/compile.py:391). -/
def styleAttrs (E : UrlEnv) (C : SanCfg) (name : Str) (as : Attrs) : Attrs :=
  if C.cssProps.isEmpty then as
  else match as.find? fun p => E.U.lower p.1 = c%"style" with
    | none => as
    | some (k, v) =>
      match v.bind (sanitizeStyle E C.cssProps (some C.url) (E.U.lower name)) with
      | none => as.filter fun p => p.1 ≠ k
      | some s => dictSet c%"style" (some s) (if k = c%"style" then as else as.filter fun p => p.1 ≠ k)

/-- The tokens of one attribute value: `tok.strip().lower()` for `tok in value.split()` (transforms/runtime.py:513-517). -/
def relTokens (U : Uni) (v : Option Str) : List Str :=
  ((splitWs U.isSpace [] (v.getD [])).map fun t => U.lower (stripP U.isSpace t)).filter fun t => !t.isEmpty

/-- `if tt not in existing: existing.append(tt)`. -/
def addToken (existing : List Str) (t : Str) : List Str := if existing.contains t then existing else existing ++ [t]

/-- transforms/runtime.py:502-541 the `merge_attr_tokens` transform for tag `a` and attribute `rel`. -/
def mergeRel (U : Uni) (tokens : List Str) (name : Str) (as : Attrs) : Attrs :=
  if U.lower name ≠ c%"a" then as
  else
    let matched := as.filter fun p => U.lower p.1 = c%"rel"
    let existing := (matched.flatMap fun p => relTokens U p.2).foldl addToken []
    let all := tokens.foldl addToken existing
    let normalized := join c%" " all
    let changed := all.length ≠ existing.length
    let mixed := !matched.isEmpty && (matched.length ≠ 1 || matched.any fun p => p.1 ≠ c%"rel")
    if changed || mixed || as.lookup c%"rel" ≠ some (some normalized) then
      dictSet c%"rel" (some normalized) (as.filter fun p => !(U.lower p.1 = c%"rel" && p.1 ≠ c%"rel"))
    else as

/-- transforms/runtime.py:632-674: `strip_invisible_unicode` on attributes. -/
def stripAttrs (as : Attrs) : Attrs := as.map fun p => (p.1, p.2.map stripInvisible)

/-! ### The walker -/

/-- `node.name`. Documents and document fragments are not told apart. -/
def nodeName : Node → Str
  | .text _ => c%"#text"
  | .comment _ => c%"#comment"
  | .pi _ => c%"#processing-instruction"
  | .doctype _ _ _ => c%"!doctype"
  | .doc _ => c%"#document-fragment"
  | .elem name _ _ _ _ _ => name

/-- transforms/runtime.py:399-400 `is_special or is_doctype`. -/
def isSpecial (n : Node) : Bool := (nodeName n).head? = some '#' || nodeName n = c%"!doctype"

/-- transforms/runtime.py:402 `is_comment`. -/
def isCommentName (n : Node) : Bool := nodeName n = c%"#comment" || nodeName n = c%"#processing-instruction"

/-- transforms/runtime.py:403-413: is the node foreign by itself? -/
def isForeign (U : Uni) : Node → Bool
  | .elem name ns _ _ _ _ =>
    !isHtmlNs ns || (!(name.head? = some '#' || name = c%"!doctype") && [c%"math", c%"svg"].contains (U.lower name))
  | _ => false

/-- What surrounds a node during the walk: the siblings already processed (nearest first), the siblings to come, and the enclosing
elements with theirs (innermost first). -/
structure Frame where
  name : Str
  ns : Option Str
  attrs : Attrs
  left : List Node
  right : List Node

/-- What a user transform (Drop, Unwrap, Empty, SetAttrs, Edit, Decide, EditAttrs, Linkify, ...) does to a node: change it (or keep
it), or replace it by nodes that continue with the same transform (`again`) or with the next one. -/
inductive UserAct
  | keep (n : Node)
  | replace (l : List Node) (again : Bool)

/-- The walk transforms (transforms/compile.py:356-421, transforms/runtime.py:421-875). User transforms listed before `Sanitize` in the same walk are
arbitrary functions of the node and its surroundings. -/
inductive Op
  | user (f : List Frame → Node → UserAct)
  | dropForeign
  | decide
  | stripInvisible
  | editAttrs
  | mergeRel
  | dropComments
  | dropDoctype

/-- A user transform. -/
def IsUser : Op → Prop
  | .user _ => True
  | _ => False

/-- What the code reads from source positions: the text of an escaped element's tags (transforms/runtime.py:126-177), and whether a foreign
subtree contains an unclosed foreign `script` or `style` (transforms/runtime.py:435-458). -/
structure SanEnv where
  E : UrlEnv
  startText : Node → Option Str
  endText : Node → Option Str
  unclosed : Node → Bool

mutual
/-- transforms/runtime.py:435-452: is there a `script` or `style` outside the HTML namespace, in the node or below its children, whose
`_end_tag_present` (`ended`) is not set? The flag is set only while parsing, and only if tag spans are tracked (every call of
parser/engine.py:1382 `_set_end_span` is guarded by `_track_tag_spans`): for policies that do not escape tags it is never set, nor is it for
nodes that were made by hand. `SanEnv.unclosed` is this function, for some `ended`. -/
def openForeign (ended : Node → Bool) : Node → Bool
  | .elem name ns as kids tpl content =>
    (!(ns = none || ns = some c%"html") && (name = c%"script" || name = c%"style") && !ended (.elem name ns as kids tpl content)) ||
      openForeignL ended kids
  | .doc kids => openForeignL ended kids
  | _ => false
/-- The children. -/
def openForeignL (ended : Node → Bool) : List Node → Bool
  | [] => false
  | n :: r => openForeign ended n || openForeignL ended r
end

/-- Result of a transform on a node: go on with the next one, replace the node (each replacement with the index of its first
transform), or drop the node and all siblings after it. -/
inductive StepR
  | cont (n : Node)
  | done (l : List (Node × Nat))
  | cut

/-- The action of `_sanitize_node_decision` (transforms/compile.py:306-343). -/
inductive Decision
  | keep
  | drop
  | unwrap
  | escape
deriving DecidableEq

/-- transforms/compile.py:306-343 `_sanitize_node_decision` (reporting is modelled by `Handler`, C36, and Model/Report.lean, C99). -/
def decision (U : Uni) (C : SanCfg) (name : Str) : Decision :=
  if C.allowedTags.contains (U.lower name) then .keep
  else if C.dropContent.contains (U.lower name) then .drop
  else match C.handling with
    | .drop => .drop
    | .unwrap => .unwrap
    | .escape => .escape

/-- transforms/runtime.py:264-277 `_detach_children_for_hoist`: children, then template content. -/
def hoisted : Node → List Node
  | .elem _ _ _ kids tpl content => if tpl then kids ++ content else kids
  | .doc kids => kids
  | _ => []

/-- A text node for a non-empty string. -/
def textNode? : Option Str → List Node
  | none => []
  | some s => if s.isEmpty then [] else [.text s]

/-- Replace the attributes of an element. -/
def setAttrs (f : Str → Attrs → Attrs) : Node → Node
  | .elem name ns as kids tpl content => .elem name ns (f name as) kids tpl content
  | n => n

/-- transforms/compile.py:374-394: AllowlistAttrs, DropUrlAttrs and AllowStyleAttrs, compiled into one chain (`_append_compiled_transform`). -/
def sanAttrs (S : SanEnv) (C : SanCfg) (name : Str) (as : Attrs) : Attrs :=
  styleAttrs S.E C name (dropUrlAttrs S.E C.url name (allowlistAttrs S.E.U (effAttrs C) name as))

/-- One transform on one node (transforms/runtime.py:421-875). `foreign` is `node_foreign_context`, `idx` the transform's index. Escaped comments
of a document are left in place (the code moves them to the start of the body, transforms/runtime.py:545-572). -/
def applyOp (S : SanEnv) (C : SanCfg) (path : List Frame) (foreign : Bool) (idx : Nat) (op : Op) (n : Node) : StepR :=
  match op with
  | .user f =>
    match f path n with
    | .keep n' => .cont n'
    | .replace l again => .done (l.map fun x => (x, if again then idx else idx + 1))
  | .dropForeign =>
    if isSpecial n || !foreign then .cont n
    else if S.unclosed n then .cut
    else .done []
  | .decide =>
    if isSpecial n then .cont n
    else match decision S.E.U C (nodeName n) with
      | .keep => .cont n
      | .drop => .done []
      | .unwrap => .done ((hoisted n).map fun k => (k, idx))
      | .escape => .done ((textNode? (S.startText n) ++ hoisted n ++ textNode? (S.endText n)).map fun k => (k, idx))
  | .stripInvisible =>
    match n with
    | .text d => .cont (.text (JH.stripInvisible d))
    | n => if isSpecial n then .cont n else .cont (setAttrs (fun _ as => stripAttrs as) n)
  | .editAttrs => if isSpecial n then .cont n else .cont (setAttrs (sanAttrs S C) n)
  | .mergeRel => if isSpecial n then .cont n else .cont (setAttrs (JH.mergeRel S.E.U C.forceRel) n)
  | .dropComments =>
    if !isCommentName n then .cont n
    else if C.handling = .escape then
      match n with
      | .comment d => .done [(.text (c%"<!--" ++ d ++ c%"-->"), idx + 1)]
      | .pi d => .done [(.text (c%"<!--" ++ d ++ c%"-->"), idx + 1)]
      | _ => .done [(.text c%"<!---->", idx + 1)]
    else .done []
  | .dropDoctype => if nodeName n = c%"!doctype" then .done [] else .cont n

/-- transforms/runtime.py:421: `for idx in range(start_at, wt_len)`. -/
def runOps (S : SanEnv) (C : SanCfg) (path : List Frame) (foreign : Bool) : Nat → List Op → Node → StepR
  | _, [], n => .cont n
  | idx, op :: ops, n =>
    match applyOp S C path foreign idx op n with
    | .cont n' => runOps S C path foreign (idx + 1) ops n'
    | r => r

/-- transforms/runtime.py:880-898: which children are visited, and how: those of special nodes other than text and comments, and children and
template content of elements (`walk true`). -/
def descend (walk : Bool → List Node → List Node) (n : Node) : Node :=
  match n with
  | .elem name ns as kids tpl content =>
    if name.head? = some '#' then
      (if name = c%"#text" || isCommentName n then n else .elem name ns as (walk false kids) tpl content)
    else .elem name ns as (walk false kids) tpl (if tpl then walk true content else content)
  | .doc kids => .doc (walk false kids)
  | n => n

/-- The frame of a node's children. -/
def frameOf (left right : List Node) (n : Node) : Frame :=
  match n with
  | .elem name ns as _ _ _ => ⟨name, ns, as, left, right⟩
  | n => ⟨nodeName n, none, [], left, right⟩

/-- transforms/runtime.py:368-898 `apply_to_children`: the children still to process, each with the index of its first transform
(`created_start_index`), the children processed so far (`left`, nearest first), and `foreign_context`. The result is the processed
list. The code's explicit stack of positions becomes recursion; the first argument bounds the number of steps. -/
def walkF (S : SanEnv) (C : SanCfg) (ops : List Op) : Nat → List Frame → Bool → List Node → List (Node × Nat) → List Node
  | 0, _, _, left, _ => left.reverse
  | _ + 1, _, _, left, [] => left.reverse
  | fuel + 1, up, fc, left, (n, s) :: rest =>
    let foreign := fc || isForeign S.E.U n
    let path := ⟨[], none, [], left, rest.map Prod.fst⟩ :: up
    match runOps S C path foreign s (ops.drop s) n with
    | .cut => left.reverse
    | .done l => walkF S C ops fuel up fc left (l ++ rest)
    | .cont n' =>
      let kidsUp := frameOf left (rest.map Prod.fst) n' :: up
      let fragUp := fun frag : Bool => if frag then ⟨c%"#document-fragment", none, [], [], []⟩ :: kidsUp else kidsUp
      let n'' := descend (fun frag kids => walkF S C ops fuel (fragUp frag) foreign [] (kids.map fun k => (k, 0))) n'
      walkF S C ops fuel up fc (n'' :: left) rest

/-- transforms/compile.py:356-421: the walk transforms of a policy. -/
def sanOps (C : SanCfg) : List Op :=
  [.dropForeign, .decide] ++ (if C.stripInv then [.stripInvisible] else []) ++ [.editAttrs] ++
    (if C.forceRel.isEmpty then [] else [.mergeRel]) ++ (if C.dropComments then [.dropComments] else []) ++
    (if C.dropDoctype then [.dropDoctype] else [])

/-! ### Raw text hardening -/

/-- sanitizer/rawtext.py:12. -/
def rawtextElements : List Str := [c%"script", c%"style"]

/-- The texts among the children. -/
def textsOf : List Node → List Str
  | [] => []
  | .text d :: r => d :: textsOf r
  | _ :: r => textsOf r

/-- sanitizer/rawtext.py:59-115: the children of a raw text element. -/
def hardenKids (U : Uni) (name : Str) (kids : List Node) : List Node :=
  let texts := textsOf kids
  if texts.isEmpty then []
  else
    let r := neutralize (asciiLower U) name texts.flatten
    let kids' := if r.2 then (if r.1.isEmpty then [] else [.text r.1]) else texts.map Node.text
    if name = c%"style" && !r.1.isEmpty && cssDisallowed r.1 false then [] else kids'

mutual
/-- sanitizer/rawtext.py:41-122 `_sanitize_rawtext_element_contents`. -/
def harden (U : Uni) : Node → Node
  | .elem name ns as kids tpl content =>
    if rawtextElements.contains (U.lower name) then .elem name ns as (hardenKids U (U.lower name) kids) tpl content
    else .elem name ns as (hardenL U kids) tpl (if tpl then hardenL U content else content)
  | .doc kids => .doc (hardenL U kids)
  | n => n
/-- The children pushed on the stack. -/
def hardenL (U : Uni) : List Node → List Node
  | [] => []
  | n :: ns => harden U n :: hardenL U ns
end

/-! ### Entry points -/

/-- The number of steps that suffices for a list of nodes (every step removes a node or turns a comment into text). -/
def walkFuel (kids : List Node) : Nat := 2 * Node.sizeL kids + 1

/-- transforms/runtime.py:69-1046 `apply_compiled_transforms` for user walk transforms followed by those of a policy (they run in one
walk), on the children of the root (transforms/runtime.py:900-909), then the hardening pass when a raw text element is allowed
(transforms/compile.py:423-436). -/
def transformKids (S : SanEnv) (C : SanCfg) (pre : List Op) (fuel : Nat) (kids : List Node) : List Node :=
  let out := walkF S C (pre ++ sanOps C) fuel [] false [] (kids.map fun k => (k, 0))
  if C.allowedTags.any rawtextElements.contains then hardenL S.E.U out else out

/-- The same without user transforms. -/
def sanitizeKids (S : SanEnv) (C : SanCfg) (kids : List Node) : List Node := transformKids S C [] (walkFuel kids) kids

/-- sanitizer/dom.py:62-89 `_apply_policy_to_root`. -/
def sanitizeRoot (S : SanEnv) (C : SanCfg) : Node → Node
  | .doc kids => .doc (sanitizeKids S C kids)
  | n =>
    match sanitizeKids S C [n] with
    | [only] => only
    | l => .doc l

end JH
