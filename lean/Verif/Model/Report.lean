import Verif.Model.Sanitize
import Verif.Model.Policy
/-! Model of what the tree sanitizer reports to its policy (`SanitizationPolicy.handle_unsafe`): the calls in
/repo/src/justhtml/transforms/compile.py, transforms/runtime.py and sanitizer/rawtext.py, in the order in which they are made.
Source positions are not modelled (the findings carry no line and column, as without `track_node_locations`). -/
namespace JH

/-- The messages given to `handle_unsafe`. -/
inductive Finding
  /-- transforms/runtime.py:432-434 -/
  | foreign (tag : Str)
  /-- transforms/compile.py:322-323 -/
  | dropped (tag : Str)
  /-- transforms/compile.py:330-331 -/
  | notAllowed (tag : Str)
  /-- transforms/runtime.py:637 -/
  | invisibleText
  /-- transforms/runtime.py:669-673 -/
  | invisibleAttrs (keys : List Str)
  /-- transforms/compile.py:798-799 -/
  | attr (key : Str)
  /-- transforms/compile.py:855-856, 880-881 -/
  | url (key : Str)
  /-- transforms/compile.py:863-864 -/
  | urlNoRule (key : Str)
  /-- transforms/compile.py:952-953, 967-968 -/
  | style
  /-- transforms/runtime.py:576-577 -/
  | comment
  /-- transforms/runtime.py:588-589 -/
  | doctype
  /-- sanitizer/rawtext.py:71-77 -/
  | rawChild (tag : Str)
  /-- sanitizer/rawtext.py:89-95 -/
  | rawEnd (tag : Str)
  /-- sanitizer/rawtext.py:104-110 -/
  | rawStyle
deriving DecidableEq

/-- The texts of the messages (lines as in `Finding`). -/
def Finding.msg : Finding → Str
  | .foreign t => c%"Unsafe tag '" ++ t ++ c%"' (foreign namespace)"
  | .dropped t => c%"Unsafe tag '" ++ t ++ c%"' (dropped content)"
  | .notAllowed t => c%"Unsafe tag '" ++ t ++ c%"' (not allowed)"
  | .invisibleText => c%"Stripped invisible Unicode from text node"
  | .invisibleAttrs ks => c%"Stripped invisible Unicode from attribute(s): " ++ join c%", " ks
  | .attr k => c%"Unsafe attribute '" ++ k ++ c%"' (not allowed)"
  | .url k => c%"Unsafe URL in attribute '" ++ k ++ c%"'"
  | .urlNoRule k => c%"Unsafe URL in attribute '" ++ k ++ c%"' (no rule)"
  | .style => c%"Unsafe inline style in attribute 'style'"
  | .comment => c%"Dropped comment"
  | .doctype => c%"Dropped doctype"
  | .rawChild t => c%"Unsafe non-text child inside <" ++ t ++ c%"> was dropped"
  | .rawEnd t => c%"Unsafe raw text inside <" ++ t ++ c%"> contains a closing tag sequence"
  | .rawStyle => c%"Unsafe CSS inside <style> contains resource-loading constructs"

/-! ### Attributes -/

/-- transforms/compile.py:742-803 `_allowlist_attrs`, its reports. -/
def allowFindings (U : Uni) (attrs : List (Str × List Str)) (tag : Str) (as : Attrs) : List Finding :=
  let allowed := allowedFor U attrs tag
  if as.all fun p => !p.1.isEmpty && allowed.contains p.1 then []
  else as.flatMap fun p =>
    if (stripP U.isSpace p.1).isEmpty then []
    else if allowed.contains p.1 then []
    else if allowed.contains (U.lower p.1) then []
    else [Finding.attr (U.lower p.1)]

/-- transforms/compile.py:839-886: the report about one attribute. -/
def urlFinding (E : UrlEnv) (p : UrlPolicy) (tag : Str) (as : Attrs) (key : Str) (v : Option Str) : List Finding :=
  let lk := E.U.lower key
  match isSinkAttr lk, urlRuleFor p tag lk with
  | false, none => []
  | sink, rule =>
    match (if sink then sinkKind E.U tag lk as else some .url) with
    | none => []
    | some kind =>
      match v, rule with
      | none, _ => [.url lk]
      | _, none => [.urlNoRule lk]
      | some v, some rule =>
        match sinkValue E p rule tag lk kind v with
        | none => [.url lk]
        | some _ => []

/-- transforms/compile.py:819-911 `_drop_url_attrs`, its reports. -/
def urlFindings (E : UrlEnv) (p : UrlPolicy) (name : Str) (as : Attrs) : List Finding :=
  as.flatMap fun a => urlFinding E p (E.U.lower name) as a.1 a.2

/-- transforms/compile.py:922-980 `_allow_style_attrs`, its reports. -/
def styleFindings (E : UrlEnv) (C : SanCfg) (name : Str) (as : Attrs) : List Finding :=
  if C.cssProps.isEmpty then []
  else match as.find? fun p => E.U.lower p.1 = c%"style" with
    | none => []
    | some (_, v) =>
      match v.bind (sanitizeStyle E C.cssProps (some C.url) (E.U.lower name)) with
      | none => [.style]
      | some _ => []

/-- transforms/compile.py:374-394, the reports of the chain. -/
def editFindings (S : SanEnv) (C : SanCfg) (name : Str) (as : Attrs) : List Finding :=
  let as1 := allowlistAttrs S.E.U (effAttrs C) name as
  let as2 := dropUrlAttrs S.E C.url name as1
  allowFindings S.E.U (effAttrs C) name as ++ urlFindings S.E C.url name as1 ++ styleFindings S.E C name as2

/-- transforms/runtime.py:646-673: the attributes whose value changed, if any. -/
def invisibleFindings (as : Attrs) : List Finding :=
  let keys := (as.filter fun p => decide (p.2.map stripInvisible ≠ p.2)).map Prod.fst
  if keys.isEmpty then [] else [.invisibleAttrs keys]

/-! ### The walk -/

/-- transforms/compile.py:306-343 `_sanitize_node_decision`, its report. -/
def tagFindings (U : Uni) (C : SanCfg) (name : Str) : List Finding :=
  if C.allowedTags.contains (U.lower name) then []
  else if C.dropContent.contains (U.lower name) then [.dropped (U.lower name)]
  else [.notAllowed (U.lower name)]

/-- What one transform reports about one node (transforms/runtime.py:421-674). The forced link relation is not reported to the policy
(transforms/compile.py:400, `report=t.report`), and neither is an escaped comment (transforms/runtime.py:545-572). -/
def opFindings (S : SanEnv) (C : SanCfg) (foreign : Bool) (op : Op) (n : Node) : List Finding :=
  match op with
  | .user _ => []
  | .dropForeign => if isSpecial n || !foreign then [] else [.foreign (S.E.U.lower (nodeName n))]
  | .decide => if isSpecial n then [] else tagFindings S.E.U C (nodeName n)
  | .stripInvisible =>
    match n with
    | .text d => if JH.stripInvisible d ≠ d then [.invisibleText] else []
    | .elem name ns as kids tpl content => if isSpecial (.elem name ns as kids tpl content) then [] else invisibleFindings as
    | _ => []
  | .editAttrs =>
    match n with
    | .elem name ns as kids tpl content => if isSpecial (.elem name ns as kids tpl content) then [] else editFindings S C name as
    | _ => []
  | .mergeRel => []
  | .dropComments => if !isCommentName n then [] else if C.handling = .escape then [] else [.comment]
  | .dropDoctype => if nodeName n = c%"!doctype" then [.doctype] else []

/-- transforms/runtime.py:421: `for idx in range(start_at, wt_len)`, with the reports. -/
def runOpsR (S : SanEnv) (C : SanCfg) (path : List Frame) (foreign : Bool) : Nat → List Op → Node → StepR × List Finding
  | _, [], n => (.cont n, [])
  | idx, op :: ops, n =>
    match applyOp S C path foreign idx op n with
    | .cont n' =>
      let r := runOpsR S C path foreign (idx + 1) ops n'
      (r.1, opFindings S C foreign op n ++ r.2)
    | r => (r, opFindings S C foreign op n)

/-- transforms/runtime.py:880-898, with the reports: children before template content. -/
def descendR (walk : Bool → List Node → List Node × List Finding) (n : Node) : Node × List Finding :=
  match n with
  | .elem name ns as kids tpl content =>
    if name.head? = some '#' then
      (if name = c%"#text" || isCommentName n then (n, [])
        else (.elem name ns as (walk false kids).1 tpl content, (walk false kids).2))
    else
      (.elem name ns as (walk false kids).1 tpl (if tpl then (walk true content).1 else content),
        (walk false kids).2 ++ (if tpl then (walk true content).2 else []))
  | .doc kids => (.doc (walk false kids).1, (walk false kids).2)
  | n => (n, [])

/-- transforms/runtime.py:368-898 `apply_to_children`, with the reports (see `walkF`). -/
def walkR (S : SanEnv) (C : SanCfg) (ops : List Op) : Nat → List Frame → Bool → List Node → List (Node × Nat) → List Node × List Finding
  | 0, _, _, left, _ => (left.reverse, [])
  | _ + 1, _, _, left, [] => (left.reverse, [])
  | fuel + 1, up, fc, left, (n, s) :: rest =>
    let foreign := fc || isForeign S.E.U n
    let path := ⟨[], none, [], left, rest.map Prod.fst⟩ :: up
    let run := runOpsR S C path foreign s (ops.drop s) n
    match run.1 with
    | .cut => (left.reverse, run.2)
    | .done l =>
      let r := walkR S C ops fuel up fc left (l ++ rest)
      (r.1, run.2 ++ r.2)
    | .cont n' =>
      let kidsUp := frameOf left (rest.map Prod.fst) n' :: up
      let fragUp := fun frag : Bool => if frag then ⟨c%"#document-fragment", none, [], [], []⟩ :: kidsUp else kidsUp
      let d := descendR (fun frag kids => walkR S C ops fuel (fragUp frag) foreign [] (kids.map fun k => (k, 0))) n'
      let r := walkR S C ops fuel up fc (d.1 :: left) rest
      (r.1, run.2 ++ d.2 ++ r.2)

/-! ### Raw text hardening -/

/-- sanitizer/rawtext.py:59-115: the reports about a raw text element. -/
def hardenKidsF (U : Uni) (name : Str) (kids : List Node) : List Finding :=
  let texts := textsOf kids
  let nonText := (kids.filter fun k => match k with | .text _ => false | _ => true).map fun _ => Finding.rawChild name
  if texts.isEmpty then nonText
  else
    let r := neutralize (asciiLower U) name texts.flatten
    nonText ++ (if r.2 then [.rawEnd name] else []) ++
      (if name = c%"style" && !r.1.isEmpty && cssDisallowed r.1 false then [.rawStyle] else [])

mutual
/-- sanitizer/rawtext.py:41-122 `_sanitize_rawtext_element_contents`, its reports: template content comes before the children. -/
def hardenF (U : Uni) : Node → List Finding
  | .elem name _ _ kids tpl content =>
    if rawtextElements.contains (U.lower name) then hardenKidsF U (U.lower name) kids
    else (if tpl then hardenFL U content else []) ++ hardenFL U kids
  | .doc kids => hardenFL U kids
  | _ => []
/-- The children pushed on the stack. -/
def hardenFL (U : Uni) : List Node → List Finding
  | [] => []
  | n :: ns => hardenF U n ++ hardenFL U ns
end

/-! ### Entry points -/

/-- `sanitizeKids` with the reports (transforms/compile.py:356-436, transforms/runtime.py:69-1046). -/
def sanitizeKidsR (S : SanEnv) (C : SanCfg) (kids : List Node) : List Node × List Finding :=
  let out := walkR S C (sanOps C) (walkFuel kids) [] false [] (kids.map fun k => (k, 0))
  if C.allowedTags.any rawtextElements.contains then (hardenL S.E.U out.1, out.2 ++ hardenFL S.E.U out.1) else out

/-- sanitizer/dom.py:62-89 `_apply_policy_to_root`, with the reports. -/
def sanitizeRootR (S : SanEnv) (C : SanCfg) : Node → Node × List Finding
  | .doc kids => (.doc (sanitizeKidsR S C kids).1, (sanitizeKidsR S C kids).2)
  | n =>
    ((match (sanitizeKidsR S C [n]).1 with
      | [only] => only
      | l => .doc l), (sanitizeKidsR S C [n]).2)

/-- The calls of `policy.handle_unsafe`, one after the other; an exception ends them (sanitizer/policy.py:77-108). -/
def reportAll (h : Handler) : List Finding → Except Str Handler
  | [] => .ok h
  | f :: fs =>
    match h.handle f.msg none none with
    | .error e => .error e
    | .ok h' => reportAll h' fs

/-- sanitizer/dom.py:92-114 `sanitize_dom` (and 14-59 `_sanitize`, on a clone): reset the handler, apply the policy. The exception of
`handle_unsafe` leaves the function at the first report. -/
def sanitizeDom (S : SanEnv) (C : SanCfg) (h : Handler) (root : Node) : Except Str (Node × Handler) :=
  let h0 := if h.mode = .collect then h.reset else h
  match reportAll h0 (sanitizeRootR S C root).2 with
  | .error e => .error e
  | .ok h' => .ok ((sanitizeRootR S C root).1, h')

end JH
