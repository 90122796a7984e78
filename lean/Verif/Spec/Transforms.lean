import Verif.Spec.Sanitize
import Verif.Model.Transforms
/-! What the transforms are supposed to do to a tree, by recursion on the tree. -/
namespace JH.Spec

/-- The node is an element of which `p` holds; `p` looks at the tag name, the namespace and the attributes. -/
def elemIs (p : Str → Option Str → List (Str × Option Str) → Bool) : Node → Bool
  | .elem name ns as _ _ _ => p name ns as
  | _ => false

/-- Every element of the tree has a name that can be written in markup (`#…` and `!doctype` are reserved for other nodes). -/
def WellNamed (n : Node) : Prop := ∀ name ns as kids tpl content, n = .elem name ns as kids tpl content → ProperName name

mutual
/-- The tree without the elements of which `p` holds, below the node itself. -/
def withoutIn (p : Str → Option Str → List (Str × Option Str) → Bool) : Node → Node
  | .elem name ns as kids tpl content => .elem name ns as (without p kids) tpl (if tpl then without p content else content)
  | .doc kids => .doc (without p kids)
  | n => n
/-- The trees without the elements of which `p` holds. -/
def without (p : Str → Option Str → List (Str × Option Str) → Bool) : List Node → List Node
  | [] => []
  | n :: ns => if elemIs p n then without p ns else withoutIn p n :: without p ns
end

mutual
/-- Like `withoutIn`, except that at an element of which `p` and `broken` hold the rest of the list is dropped as well. -/
def cutIn (p : Str → Option Str → List (Str × Option Str) → Bool) (broken : Node → Bool) : Node → Node
  | .elem name ns as kids tpl content => .elem name ns as (cutOff p broken kids) tpl (if tpl then cutOff p broken content else content)
  | .doc kids => .doc (cutOff p broken kids)
  | n => n
/-- The trees without the elements of which `p` holds, and without all siblings after one of which `broken` holds as well. -/
def cutOff (p : Str → Option Str → List (Str × Option Str) → Bool) (broken : Node → Bool) : List Node → List Node
  | [] => []
  | n :: ns => if elemIs p n then (if broken n then [] else cutOff p broken ns) else cutIn p broken n :: cutOff p broken ns
end

/-- The node is no `script` or `style` of SVG or another foreign namespace, or the parser has recorded its end tag. -/
def EndKnown (ended : Node → Bool) (m : Node) : Prop :=
  ∀ name ns as kids tpl content, m = .elem name ns as kids tpl content → name = c%"script" ∨ name = c%"style" →
    ns = none ∨ ns = some c%"html" ∨ ended m = true

mutual
/-- The tree after every node below was replaced by the nodes `r` gives, where `none` means "leave it". -/
def unwrappedIn (p : Str → Option Str → List (Str × Option Str) → Bool) : Node → Node
  | .elem name ns as kids tpl content => .elem name ns as (unwrapped p kids) tpl (if tpl then unwrapped p content else content)
  | .doc kids => .doc (unwrapped p kids)
  | n => n
/-- The trees where every element of which `p` holds is replaced by what it contains. -/
def unwrapped (p : Str → Option Str → List (Str × Option Str) → Bool) : List Node → List Node
  | [] => []
  | .elem name ns as kids tpl content :: rest =>
    (if p name ns as then unwrapped p kids ++ (if tpl then unwrapped p content else [])
      else [.elem name ns as (unwrapped p kids) tpl (if tpl then unwrapped p content else content)]) ++ unwrapped p rest
  | n :: rest => unwrappedIn p n :: unwrapped p rest
end

mutual
/-- The tree after `f` was applied to every element: `f` gives the new attributes. -/
def mapAttrs (f : Str → Option Str → List (Str × Option Str) → List (Str × Option Str)) : Node → Node
  | .elem name ns as kids tpl content => .elem name ns (f name ns as) (mapAttrsL f kids) tpl (if tpl then mapAttrsL f content else content)
  | .doc kids => .doc (mapAttrsL f kids)
  | n => n
/-- The same for a list. -/
def mapAttrsL (f : Str → Option Str → List (Str × Option Str) → List (Str × Option Str)) : List Node → List Node
  | [] => []
  | n :: ns => mapAttrs f n :: mapAttrsL f ns
end

mutual
/-- The tree where the elements of which `p` holds have lost their children and template content. -/
def emptiedAll (p : Str → Option Str → List (Str × Option Str) → Bool) : Node → Node
  | .elem name ns as kids tpl content =>
    if p name ns as then .elem name ns as [] tpl (if tpl then [] else content)
    else .elem name ns as (emptiedAllL p kids) tpl (if tpl then emptiedAllL p content else content)
  | .doc kids => .doc (emptiedAllL p kids)
  | n => n
/-- The same for a list. -/
def emptiedAllL (p : Str → Option Str → List (Str × Option Str) → Bool) : List Node → List Node
  | [] => []
  | n :: ns => emptiedAll p n :: emptiedAllL p ns
end

mutual
/-- The tree without the nodes (of any kind) of which `gone` holds, below the node itself. -/
def siftIn (gone : Node → Bool) : Node → Node
  | .elem name ns as kids tpl content => .elem name ns as (sift gone kids) tpl (if tpl then sift gone content else content)
  | .doc kids => .doc (sift gone kids)
  | n => n
/-- The trees without the nodes of which `gone` holds. -/
def sift (gone : Node → Bool) : List Node → List Node
  | [] => []
  | n :: ns => if gone n then sift gone ns else siftIn gone n :: sift gone ns
end

/-- A text node, unless there is nothing to write. -/
def tagNode : Option Str → List Node
  | some (c :: cs) => [.text (c :: cs)]
  | _ => []

mutual
/-- What takes the place of a node when `q` says for every element what is to be done with it; `st` and `en` are the texts of the tags of an
element. What is hoisted out of an element is itself decided upon. -/
def decided (q : Node → DecideAct) (st en : Node → Option Str) : Node → List Node
  | .elem name ns as kids tpl content =>
    match q (.elem name ns as kids tpl content) with
    | .keep => [.elem name ns as (decidedL q st en kids) tpl (if tpl then decidedL q st en content else content)]
    | .empty => [.elem name ns as [] tpl (if tpl then [] else content)]
    | .drop => []
    | .unwrap => decidedL q st en kids ++ (if tpl then decidedL q st en content else [])
    | .escape => tagNode (st (.elem name ns as kids tpl content)) ++ (decidedL q st en kids ++ (if tpl then decidedL q st en content else [])) ++
        tagNode (en (.elem name ns as kids tpl content))
  | .doc kids => [.doc (decidedL q st en kids)]
  | n => [n]
/-- The same for a list. -/
def decidedL (q : Node → DecideAct) (st en : Node → Option Str) : List Node → List Node
  | [] => []
  | n :: ns => decided q st en n ++ decidedL q st en ns
end

/-- The action asked of `f` for the elements of which `p` holds. -/
def askIf (p : Str → Option Str → List (Str × Option Str) → Bool) (f : Node → DecideAct) (n : Node) : DecideAct := if elemIs p n then f n else .keep

/-- The value a dict has for a key, `none` when there is no such key. -/
def valueOf (as : List (Str × Option Str)) (k : Str) : Option (Option Str) := (as.find? fun p => p.1 = k).map (·.2)

/-- What keeps an element from being empty: another element, a doctype, or text; text that is all white space (`sp`) does not count if `strip`. -/
def fills (sp : Char → Bool) (strip : Bool) : Node → Bool
  | .elem _ _ _ _ _ _ => true
  | .doctype _ _ _ => true
  | .text d => d.any fun c => !strip || !sp c
  | _ => false

/-- An element with nothing in it that counts, other than the HTML void elements. -/
def emptyElem (lower : Str → Str) (sp : Char → Bool) (strip : Bool) : Node → Bool
  | .elem name ns as kids tpl content =>
    !(ns = some c%"html" && voidElements.contains (lower name)) && !(contents (.elem name ns as kids tpl content)).any (fills sp strip)
  | _ => false

mutual
/-- What is below the node is pruned. -/
def pruneUpIn (gone : Node → Bool) : Node → Node
  | .elem name ns as kids tpl content => .elem name ns as (pruneUp gone kids) tpl (if tpl then pruneUp gone content else content)
  | .doc kids => .doc (pruneUp gone kids)
  | n => n
/-- From the inside out: first what is below a node, then the node itself is removed if `gone` then holds of it. -/
def pruneUp (gone : Node → Bool) : List Node → List Node
  | [] => []
  | n :: ns => if gone (pruneUpIn gone n) then pruneUp gone ns else pruneUpIn gone n :: pruneUp gone ns
end

mutual
/-- The transform without what is disabled in it, or nothing. -/
def onlyEnabled : TransSpec → List TransSpec
  | .one e t => if e then [.one e t] else []
  | .stage e l => if e then [.stage e (onlyEnabledL l)] else []
/-- A list of transforms without the disabled ones. -/
def onlyEnabledL : List TransSpec → List TransSpec
  | [] => []
  | s :: r => onlyEnabled s ++ onlyEnabledL r
end

end JH.Spec
