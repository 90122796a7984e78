import Verif.Model.Sanitize
import Verif.Model.Linkify
import Verif.Model.Glob
import Verif.Model.Serialize
/-! Model of the transform pipeline: the specifications (/repo/src/justhtml/transforms/spec.py), the compiler
(/repo/src/justhtml/transforms/compile.py) and the runtime that applies compiled transforms to a tree
(/repo/src/justhtml/transforms/runtime.py).

The walker itself is `walkF` of `Verif/Model/Sanitize.lean`; here every public transform becomes one of its operations.
Hooks (`callback`, `report`) and the error sink are left out, callbacks given by the user (`Edit`, `EditAttrs`, `Decide`, `EditDocument`) are functions
that change nothing but the node they are given. The root is a document or a document fragment. -/
namespace JH

/-- `SelectorMatcher(...).matches(node, selector)` for a parsed selector: a question about a node and its surroundings. Selectors that do
not parse or exceed the limits raise when the transforms are compiled or run; that is not part of this model. -/
abbrev NodeSel := List Frame → Node → Bool

/-- transforms/spec.py:43-48 `DecideAction`. -/
inductive DecideAct
  | keep
  | drop
  | unwrap
  | empty
  | escape
deriving DecidableEq

/-- transforms/spec.py:51-702: the transforms with the fields that are read (hooks left out). Names, tags, tokens and patterns are normalized as
in the constructors (`normTags`, `normTokens`). -/
inductive Trans
  | setAttrs (sel : Str) (patch : Attrs)
  | drop (sel : Str)
  | unwrap (sel : Str)
  | escape (sel : Str)
  | empty (sel : Str)
  | edit (sel : Str) (f : Node → Node)
  | editDocument (f : List Node → List Node)
  | decide (sel : Str) (f : Node → DecideAct)
  | editAttrs (sel : Str) (f : Str → Attrs → Option Attrs)
  | linkify (skip : List Str) (cfg : LinkCfg)
  | collapseWs (skip : List Str) (trim : Bool) (blocks : List Str)
  | pruneEmpty (sel : Str) (strip : Bool)
  | sanitize (C : SanCfg)
  | hardenRawtext
  | dropComments
  | dropDoctype
  | dropForeign
  | dropAttrs (sel : Str) (patterns : List Str)
  | allowlistAttrs (sel : Str) (allowed : List (Str × List Str))
  | dropUrlAttrs (sel : Str) (p : UrlPolicy)
  | allowStyleAttrs (sel : Str) (props : List Str) (p : Option UrlPolicy)
  | mergeAttrs (tag attr : Str) (tokens : List Str)

/-- transforms/__init__.py:168-195 `Stage`, and the `enabled` flag of every transform. -/
inductive TransSpec
  | one (enabled : Bool) (t : Trans)
  | stage (enabled : Bool) (l : List TransSpec)

/-- What the pipeline reads from outside: Unicode and URL tables and source positions (`S`), link tables (`L`), and the selector engine. -/
structure TransEnv where
  S : SanEnv
  L : LinkEnv
  sel : Str → NodeSel

/-! ### Operations on one node -/

/-- A selector transform that changes the node in place (transforms/runtime.py:773-778: special nodes are never matched). -/
def opEdit (p : NodeSel) (f : Node → Node) : Op := .user fun path n => .keep (if isSpecial n || !p path n then n else f n)

/-- One item of transforms/runtime.py:784-789: `if attrs.get(key) != new_val: attrs[key] = new_val`. -/
def patchStep (d : Attrs) (p : Str × Option Str) : Attrs :=
  if (d.lookup p.1).getD none ≠ p.2 then dictSet p.1 p.2 d else d

/-- transforms/runtime.py:780-798: `setattrs`. -/
def patchAttrs (patch as : Attrs) : Attrs := patch.foldl patchStep as

/-- transforms/runtime.py:780-798. -/
def opSetAttrs (p : NodeSel) (patch : Attrs) : Op := opEdit p (setAttrs fun _ as => patchAttrs patch as)

/-- transforms/runtime.py:253-262 `_empty_node`, 805-825: without children and template content. -/
def emptied : Node → Node
  | .elem name ns as _ tpl content => .elem name ns as [] tpl (if tpl then [] else content)
  | .doc _ => .doc []
  | n => n

/-- transforms/runtime.py:805-825: `empty`. -/
def opEmpty (p : NodeSel) : Op := opEdit p emptied

/-- A selector transform that replaces the node. -/
def opReplace (p : NodeSel) (again : Bool) (f : Node → List Node) : Op :=
  .user fun path n => if isSpecial n || !p path n then .keep n else .replace (f n) again

/-- transforms/runtime.py:827-836: `drop`. -/
def opDrop (p : NodeSel) : Op := opReplace p false fun _ => []

/-- transforms/runtime.py:849-875: `unwrap`. The children start after the transform (`_mark_start(child, idx + 1)`). -/
def opUnwrap (p : NodeSel) : Op := opReplace p false hoisted

/-- transforms/runtime.py:197-251 `_escape_node`: the start tag's text, the children, the end tag's text. -/
def escaped (S : SanEnv) (n : Node) : List Node := textNode? (S.startText n) ++ hoisted n ++ textNode? (S.endText n)

/-- transforms/runtime.py:838-847: `escape`. What takes the node's place starts at the transform (`mark_new_start_index=idx`). -/
def opEscape (S : SanEnv) (p : NodeSel) : Op := opReplace p true (escaped S)

/-- transforms/runtime.py:279-311 `_apply_decide_action`. Nodes that are not elements have no tags. -/
def decideAct (S : SanEnv) (n : Node) : DecideAct → UserAct
  | .keep => .keep n
  | .empty => .keep (emptied n)
  | .unwrap => .replace (hoisted n) true
  | .escape => .replace (escaped S n) true
  | .drop => .replace [] true

/-- transforms/runtime.py:722-727, 735-739: the callbacks are asked one after the other, the first answer other than `KEEP` counts. -/
def chainAct (fs : List (Node → DecideAct)) (n : Node) : DecideAct :=
  match fs with
  | [] => .keep
  | f :: fs => if f n = .keep then chainAct fs n else f n

/-- transforms/runtime.py:692-755: `decide` and `decide_chain`. `none` is the selector `*`, which matches nodes of every kind. -/
def opDecide (S : SanEnv) (p : Option NodeSel) (fs : List (Node → DecideAct)) : Op :=
  .user fun path n =>
    match p with
    | none => decideAct S n (chainAct fs n)
    | some p => if isSpecial n || !p path n then .keep n else decideAct S n (chainAct fs n)

/-- transforms/runtime.py:494-498, 767-770: `new_attrs = t.func(node); if new_attrs is not None: node.attrs = new_attrs`. -/
def applyFuncs (fs : List (Str → Attrs → Option Attrs)) (name : Str) (as : Attrs) : Attrs :=
  fs.foldl (fun as f => (f name as).getD as) as

/-- transforms/runtime.py:485-499, 757-771: `edit_attrs` and `edit_attrs_chain`. -/
def opEditAttrs (p : Option NodeSel) (fs : List (Str → Attrs → Option Attrs)) : Op :=
  opEdit (fun path n => match p with | none => true | some p => p path n) (setAttrs (applyFuncs fs))

/-- transforms/runtime.py:501-541 `merge_attr_tokens`. -/
def mergeTokens (U : Uni) (tag attr : Str) (tokens : List Str) (name : Str) (as : Attrs) : Attrs :=
  if U.lower name ≠ tag then as
  else
    let matched := as.filter fun p => U.lower p.1 = attr
    let existing := (matched.flatMap fun p => relTokens U p.2).foldl addToken []
    let all := tokens.foldl addToken existing
    let normalized := join c%" " all
    let changed := all.length ≠ existing.length
    let mixed := !matched.isEmpty && (matched.length ≠ 1 || matched.any fun p => p.1 ≠ attr)
    if changed || mixed || (as.lookup attr).getD none ≠ some normalized then
      dictSet attr (some normalized) (as.filter fun p => !(U.lower p.1 = attr && p.1 ≠ attr))
    else as

/-- transforms/runtime.py:501-541. -/
def opMerge (U : Uni) (tag attr : Str) (tokens : List Str) : Op :=
  opEdit (fun _ _ => true) (setAttrs (mergeTokens U tag attr tokens))

/-! ### White space -/

/-- transforms/runtime.py:66 `_NON_RENDERED_SIBLING_ELEMENTS`. -/
def nonRendered : List Str := [c%"datalist", c%"link", c%"meta", c%"script", c%"style", c%"template"]

/-- transforms/runtime.py:323-338: is the sibling passed over? -/
def notRendered (U : Uni) : Node → Bool
  | .text d => d.isEmpty
  | .comment _ => true
  | .pi _ => true
  | .doctype _ _ _ => false
  | .doc _ => true
  | .elem name _ as _ _ _ =>
    if name.head? = some '#' then true
    else as.any (fun p => p.1 = c%"hidden") || nonRendered.contains (U.lower name) ||
      (U.lower name = c%"dialog" && !as.any fun p => p.1 = c%"open") ||
      (U.lower name = c%"input" && U.lower (((as.lookup c%"type").getD none).getD []) = c%"hidden")

/-- transforms/runtime.py:313-337 `_nearest_rendered_sibling`, given the siblings in the direction of search. -/
def nearest (U : Uni) (l : List Node) : Option Node := l.find? fun n => !notRendered U n

/-- transforms/runtime.py:353-358 `_is_block_sibling`. -/
def isBlockSib (U : Uni) (blocks : List Str) : Node → Bool
  | .elem name _ _ _ _ _ => name.head? ≠ some '#' && (U.lower name = c%"br" || blocks.contains (U.lower name))
  | .doctype _ _ _ => blocks.contains c%"!doctype"
  | _ => false

/-- `previous_sibling is None or _is_block_sibling(previous_sibling)` (transforms/runtime.py:366, 369). -/
def atEdge (U : Uni) (blocks : List Str) (sib : Option Node) : Bool :=
  match sib with
  | none => true
  | some n => isBlockSib U blocks n

/-- transforms/runtime.py:339-366 `_trim_block_edge_text`. `parent` is the parent's name. -/
def trimEdges (U : Uni) (blocks : List Str) (parent : Str) (left right : List Node) (t : Str) : Str :=
  if parent.head? = some '#' || parent = c%"!doctype" || !blocks.contains (U.lower parent) then t
  else
    let t := if atEdge U blocks (nearest U left) then lstripP isHtmlSpace t else t
    if atEdge U blocks (nearest U right) then rstripP isHtmlSpace t else t

/-- transforms/runtime.py:593-601: a leading space is dropped after a text that ends in white space. -/
def afterSpace (U : Uni) (left : List Node) (t : Str) : Str :=
  match nearest U left with
  | some (.text d) =>
    if t.head? = some ' ' && (match d.getLast? with | some c => isHtmlSpace c | none => false) then t.tail else t
  | _ => t

/-- transforms/runtime.py:588-609: the new text. -/
def collapsedText (U : Uni) (trim : Bool) (blocks : List Str) (parent : Str) (left right : List Node) (t : Str) : Str :=
  let c := afterSpace U left (collapse t)
  if trim then trimEdges U blocks parent left right c else c

/-- transforms/runtime.py:886-890: an enclosing element is among the skip tags. -/
def skipsIn (U : Uni) (skip : List Str) (up : List Frame) : Bool :=
  up.any fun f => f.name.head? ≠ some '#' && skip.contains (U.lower f.name)

/-- transforms/runtime.py:588-623: `collapse_whitespace`. `skip` is the union of the skip tags of the walk. An empty result removes the node. -/
def opCollapse (U : Uni) (skip : List Str) (trim : Bool) (blocks : List Str) : Op :=
  .user fun path n =>
    match n, path with
    | .text t, own :: up =>
      if t.isEmpty || skipsIn U skip up then .keep n
      else
        let t' := collapsedText U trim blocks ((up.head?.map (·.name)).getD c%"#document") own.left own.right t
        if t'.isEmpty then .replace [] false else .keep (.text t')
    | _, _ => .keep n

/-! ### Links -/

/-- transforms/linkify.py:39-87, transforms/runtime.py:676-690: `linkify`. `skip` is the union of the skip tags of the walk. (An exception of the
link finder, C72, is not part of this model: the text is kept.) -/
def opLinkify (L : LinkEnv) (skip : List Str) (cfg : LinkCfg) : Op :=
  .user fun path n =>
    match n, path with
    | .text t, _ :: up =>
      if t.isEmpty || skipsIn L.U skip up then .keep n
      else match findLinks L cfg t with
        | .ok (m :: ms) => .replace (linkPieces (linkNs ((up.head?.map (·.ns)).getD none)) t 0 (m :: ms)) false
        | _ => .keep n
    | _, _ => .keep n

/-! ### Attribute functions -/

/-- transforms/compile.py:645-647: the attribute is one of those the default patterns match. -/
def defaultForbidden (key : Str) : Bool := startsWith c%"on" key || key = c%"srcdoc" || key.contains ':'

/-- transforms/compile.py:642 the patterns of the fast path. -/
def defaultPatterns : List Str := [c%"*:*", c%"on*", c%"srcdoc"]

/-- transforms/compile.py:680 `any(_glob_match(pattern, key) for pattern in patterns)`. -/
def globAny (patterns : List Str) (key : Str) : Bool := patterns.any fun p => globMatch p key = some true

/-- `not raw_key or not str(raw_key).strip()`. -/
def blankKey (U : Uni) (k : Str) : Bool := (stripP U.isSpace k).isEmpty

/-- transforms/compile.py:641-719 `_drop_attrs`. -/
def dropAttrsFn (U : Uni) (patterns : List Str) (_name : Str) (as : Attrs) : Option Attrs :=
  if as.isEmpty || patterns.isEmpty then none
  else if patterns = defaultPatterns then
    if as.any fun p => defaultForbidden (U.lower p.1) then some (as.filter fun p => !defaultForbidden (U.lower p.1)) else none
  else if as.any fun p => !blankKey U p.1 && globAny patterns (U.lower p.1) then
    some (as.foldl (fun out p => if blankKey U p.1 || globAny patterns (U.lower p.1) then out else dictSet (U.lower p.1) p.2 out) [])
  else none

/-! ### Compilation -/

/-- Compiled transforms (transforms/__init__.py:232-448). `walk` stands for every kind that is not merged with its neighbour. -/
inductive CT
  | walk (o : Op)
  | bulk (tags : List Str)
  | decide (sel : Str) (fs : List (Node → DecideAct))
  | editAttrs (sel : Str) (fs : List (Str → Attrs → Option Attrs))
  | linkify (skip : List Str) (cfg : LinkCfg)
  | collapseWs (skip : List Str) (trim : Bool) (blocks : List Str)
  | sanitize (C : SanCfg)
  | boundary
  | editDocument (f : List Node → List Node)
  | prune (sel : Str) (strip : Bool)
  | harden

/-- transforms/compile.py:453-464: the tag list of a `Drop` selector, when it is a plain list of tags. -/
def dropTagList (U : Uni) (sel : Str) : Option (List Str) :=
  let parts := (splitC ',' sel).map fun p => U.lower (stripP U.isSpace p)
  if parts.any fun p => p.isEmpty || p.any fun c => c%" .#[:>*+~\t\n\r\x0c".contains c then none else some parts

/-- `selector_str.strip() == "*"`. -/
def isStar (U : Uni) (sel : Str) : Bool := stripP U.isSpace sel = c%"*"

/-- transforms/compile.py:467-484 `_drop_if_tag`. -/
def dropIfTag (U : Uni) (tags : List Str) (n : Node) : DecideAct :=
  if isSpecial n || !tags.contains (U.lower (nodeName n)) then .keep else .drop

/-- transforms/compile.py:1072-1105 `_append_compiled_transform`: neighbouring attribute edits, and decisions, with the same selector become one (a
`Drop` of tags counts as a decision with the selector `*`). The list is kept in reverse. -/
def appendCT (U : Uni) (x : CT) : List CT → List CT
  | .bulk tags :: r =>
    match x with
    | .decide s' fs' => if s' = c%"*" then .decide s' (dropIfTag U tags :: fs') :: r else x :: .bulk tags :: r
    | x => x :: .bulk tags :: r
  | .editAttrs s fs :: r =>
    match x with
    | .editAttrs s' fs' => if s = s' then .editAttrs s (fs ++ fs') :: r else x :: .editAttrs s fs :: r
    | x => x :: .editAttrs s fs :: r
  | .decide s fs :: r =>
    match x with
    | .decide s' fs' => if s = s' then .decide s (fs ++ fs') :: r else x :: .decide s fs :: r
    | x => x :: .decide s fs :: r
  | r => x :: r

/-- transforms/compile.py:1097-1307: the lowering of one transform, onto the compiled ones (in reverse). `Sanitize` and `HardenRawtext` end the walk. -/
def lowerT (R : TransEnv) (t : Trans) (acc : List CT) : List CT :=
  let U := R.S.E.U
  match t with
  | .setAttrs s patch => .walk (opSetAttrs (R.sel s) patch) :: acc
  | .drop s =>
    match dropTagList U s with
    | some tags => .bulk tags :: acc
    | none => .walk (opDrop (R.sel s)) :: acc
  | .unwrap s => .walk (opUnwrap (R.sel s)) :: acc
  | .escape s => .walk (opEscape R.S (R.sel s)) :: acc
  | .empty s => .walk (opEmpty (R.sel s)) :: acc
  | .edit s f => .walk (opEdit (R.sel s) f) :: acc
  | .editDocument f => .editDocument f :: acc
  | .decide s f => appendCT U (.decide s [f]) acc
  | .editAttrs s f => appendCT U (.editAttrs s [f]) acc
  | .linkify skip cfg => .linkify skip cfg :: acc
  | .collapseWs skip trim blocks => .collapseWs skip trim blocks :: acc
  | .pruneEmpty s strip => .prune s strip :: acc
  | .sanitize C => .sanitize C :: acc
  | .hardenRawtext => .harden :: acc
  | .dropComments => .walk .dropComments :: acc
  | .dropDoctype => .walk .dropDoctype :: acc
  | .dropForeign => .walk .dropForeign :: acc
  | .dropAttrs s pats => appendCT U (.editAttrs s [dropAttrsFn U pats]) acc
  | .allowlistAttrs s allowed => appendCT U (.editAttrs s [fun name as => some (allowlistAttrs U allowed name as)]) acc
  | .dropUrlAttrs s p => appendCT U (.editAttrs s [fun name as => some (dropUrlAttrs R.S.E p name as)]) acc
  | .allowStyleAttrs s props p => appendCT U (.editAttrs s [fun name as => some (styleFn R.S.E props p name as)]) acc
  | .mergeAttrs tag attr tokens => if tokens.isEmpty then acc else .walk (opMerge U tag attr tokens) :: acc
where
  /-- transforms/compile.py:932-987 `_allow_style_attrs`. -/
  styleFn (E : UrlEnv) (props : List Str) (p : Option UrlPolicy) (name : Str) (as : Attrs) : Attrs :=
    match as.find? fun a => E.U.lower a.1 = c%"style" with
    | none => as
    | some (k, v) =>
      match v.bind (sanitizeStyle E props p (E.U.lower name)) with
      | none => as.filter fun a => a.1 ≠ k
      | some s => dictSet c%"style" (some s) (if k = c%"style" then as else as.filter fun a => a.1 ≠ k)

mutual
/-- transforms/compile.py:111-123 `_iter_flattened_transforms`: disabled stages are left out, the others are opened. The enabled flags of the
transforms are kept. -/
def flattenSpec : TransSpec → List (Bool × Trans)
  | .one e t => [(e, t)]
  | .stage e l => if e then flattenSpecs l else []
/-- The same for a list. -/
def flattenSpecs : List TransSpec → List (Bool × Trans)
  | [] => []
  | s :: r => flattenSpec s ++ flattenSpecs r
end

/-- `isinstance(t, Stage) and t.enabled`. -/
def TransSpec.isStage : TransSpec → Bool
  | .stage e _ => e
  | _ => false

/-- transforms/compile.py:249-272 `_split_into_top_level_stages`: the transforms of each stage; `pending` is collected in reverse. -/
def splitStages : List TransSpec → List TransSpec → List (List TransSpec)
  | pending, [] => if pending.isEmpty then [] else [pending.reverse]
  | pending, .stage e l :: r =>
    if !e then splitStages pending r
    else (if pending.isEmpty then [] else [pending.reverse]) ++ l :: splitStages [] r
  | pending, s :: r => splitStages (s :: pending) r

/-- transforms/compile.py:1349-1358: the enabled transforms, lowered one after the other. -/
def lowerAll (R : TransEnv) (l : List (Bool × Trans)) : List CT :=
  (l.foldl (fun acc p => if p.1 then lowerT R p.2 acc else acc) []).reverse

/-- transforms/compile.py:1309-1360 `compile_transforms`. In stages every transform is compiled for itself; stages are separated by boundaries
(the stage hook also ends the walk). -/
def compileT (R : TransEnv) (specs : List TransSpec) : List CT :=
  if specs.any TransSpec.isStage then
    (splitStages [] specs).flatMap fun st => CT.boundary :: (flattenSpecs st).flatMap fun p => lowerAll R [p]
  else lowerAll R (flattenSpecs specs)

/-! ### Running -/

/-- transforms/runtime.py:179-184: the union of the skip tags of the walk. -/
def linkSkips (l : List CT) : List Str := l.flatMap fun | .linkify s _ => s | _ => []

/-- transforms/runtime.py:185-187. -/
def wsSkips (l : List CT) : List Str := l.flatMap fun | .collapseWs s _ _ => s | _ => []

/-- The operation of a compiled transform in the walk `l`; `Sanitize` contributes several. -/
def opsOfCT (R : TransEnv) (l : List CT) : CT → List Op
  | .walk o => [o]
  | .bulk tags => [opDecide R.S none [dropIfTag R.S.E.U tags]]
  | .decide s fs => [opDecide R.S (if isStar R.S.E.U s then none else some (R.sel s)) fs]
  | .editAttrs s fs => [opEditAttrs (if isStar R.S.E.U s then none else some (R.sel s)) fs]
  | .linkify _ cfg => [opLinkify R.L (linkSkips l) cfg]
  | .collapseWs _ trim blocks => [opCollapse R.S.E.U (wsSkips l) trim blocks]
  | .sanitize C => sanOps C
  | _ => []

/-- The policy of the walk: that of its last transform, if it is a `Sanitize`. -/
def walkPolicy : List CT → SanCfg
  | [] => {}
  | .sanitize C :: _ => C
  | _ :: r => walkPolicy r

mutual
/-- transforms/runtime.py:89-118: a single `Drop` of tags removes the children by their names, list by list. -/
def bulkDrop (U : Uni) (tags : List Str) : Node → Node
  | .elem name ns as kids tpl content => .elem name ns as (bulkDropL U tags kids) tpl (if tpl then bulkDropL U tags content else content)
  | .doc kids => .doc (bulkDropL U tags kids)
  | n => n
/-- One list of children. -/
def bulkDropL (U : Uni) (tags : List Str) : List Node → List Node
  | [] => []
  | n :: ns =>
    if !isSpecial n && tags.contains (U.lower (nodeName n)) then bulkDropL U tags ns else bulkDrop U tags n :: bulkDropL U tags ns
end

/-- transforms/runtime.py:82-909 `apply_walk_transforms` on the children of the root. `fuel` bounds the steps of the walk. -/
def runWalk (R : TransEnv) (fuel : Nat) (l : List CT) (kids : List Node) : List Node :=
  match l with
  | [] => kids
  | [.bulk tags] => bulkDropL R.S.E.U tags kids
  | l => walkF R.S (walkPolicy l) (l.flatMap (opsOfCT R l)) fuel [] false [] (kids.map fun k => (k, 0))

/-! ### Pruning -/

/-- core/constants.py `VOID_ELEMENTS`, as in transforms/runtime.py:913. -/
def pruneVoid (U : Uni) (name : Str) (ns : Option Str) : Bool := ns = some c%"html" && voidElements.contains (U.lower name)

/-- transforms/runtime.py:916-933 `_has_content`. -/
def hasContent (U : Uni) (strip : Bool) (kids : List Node) : Bool :=
  kids.any fun
    | .text d => if strip then !(stripP U.isSpace d).isEmpty else !d.isEmpty
    | n => (nodeName n).head? ≠ some '#'

/-- transforms/runtime.py:912-942 `_is_effectively_empty_element`. -/
def isEmptyElem (U : Uni) (strip : Bool) : Node → Bool
  | .elem name ns _ kids tpl content =>
    !pruneVoid U name ns && !hasContent U strip kids && !(tpl && hasContent U strip content)
  | .doctype _ _ _ => true
  | _ => false

/-- transforms/runtime.py:958-980: the first transform of the batch that matches an empty node removes it. -/
def pruned (U : Uni) (batch : List (NodeSel × Bool)) (path : List Frame) (n : Node) : Bool :=
  (nodeName n).head? ≠ some '#' && batch.any fun p => p.1 path n && isEmptyElem U p.2 n

mutual
/-- transforms/runtime.py:944-980: the node after its children (template content first, then children) were pruned. `up` are the frames around it. -/
def pruneIn (U : Uni) (batch : List (NodeSel × Bool)) (up : List Frame) (left right : List Node) : Node → Node
  | .elem name ns as kids tpl content =>
    let f : Frame := ⟨name, ns, as, left, right⟩
    .elem name ns as (pruneL U batch (f :: up) [] kids) tpl
      (if tpl then pruneL U batch (⟨c%"#document-fragment", none, [], [], []⟩ :: f :: up) [] content else content)
  | .doc kids => .doc (pruneL U batch (⟨c%"#document-fragment", none, [], left, right⟩ :: up) [] kids)
  | n => n
/-- A list of children, first to last; `left` are the ones kept so far (nearest first). -/
def pruneL (U : Uni) (batch : List (NodeSel × Bool)) (up : List Frame) (left : List Node) : List Node → List Node
  | [] => left.reverse
  | n :: ns =>
    let n' := pruneIn U batch up left ns n
    if pruned U batch (⟨[], none, [], left, ns⟩ :: up) n' then pruneL U batch up left ns else pruneL U batch up (n' :: left) ns
end

/-! ### The pipeline -/

/-- What is done with the tree after a walk: transforms/runtime.py:1003-1040. -/
def isWalkCT : CT → Bool
  | .walk _ => true
  | .bulk _ => true
  | .decide _ _ => true
  | .editAttrs _ _ => true
  | .linkify _ _ => true
  | .collapseWs _ _ _ => true
  | _ => false

/-- transforms/runtime.py:982-1044: the loop over the compiled transforms. `pending` is `pending_walk`, in reverse, `batch` the prune transforms
collected so far, in reverse. A `Sanitize` is the end of its walk, followed by the hardening pass when it allows a raw text element. The fuel of each
walk is given by `fuel`. -/
def runCT (R : TransEnv) (fuel : List Node → Nat) (pending : List CT) (batch : List (NodeSel × Bool)) : List CT → List Node → List Node
  | [], kids => finishWalk (finishPrune kids)
  | t :: r, kids =>
    match t with
    | .prune s strip =>
      if batch.isEmpty then runCT R fuel [] [(R.sel s, strip)] r (finishWalk kids) else runCT R fuel [] ((R.sel s, strip) :: batch) r kids
    | .sanitize C =>
      let kids := finishPrune kids
      let out := runWalk R (fuel kids) (t :: pending).reverse kids
      runCT R fuel [] [] r (if C.allowedTags.any rawtextElements.contains then hardenL R.S.E.U out else out)
    | .boundary => runCT R fuel [] [] r (finishWalk (finishPrune kids))
    | .editDocument f => runCT R fuel [] [] r (f (finishWalk (finishPrune kids)))
    | .harden => runCT R fuel [] [] r (hardenL R.S.E.U (finishWalk (finishPrune kids)))
    | t => runCT R fuel (t :: pending) [] r (finishPrune kids)
where
  /-- Run the pending walk. -/
  finishWalk (kids : List Node) : List Node := runWalk R (fuel kids) pending.reverse kids
  /-- Run the pending prune batch. -/
  finishPrune (kids : List Node) : List Node :=
    if batch.isEmpty then kids else pruneL R.S.E.U batch.reverse [] [] kids

/-- `apply_compiled_transforms(root, compile_transforms(specs))` (transforms/runtime.py:69-1046) on the children of the root. -/
def transform (R : TransEnv) (fuel : List Node → Nat) (specs : List TransSpec) (kids : List Node) : List Node :=
  runCT R fuel [] [] (compileT R specs) kids

end JH
