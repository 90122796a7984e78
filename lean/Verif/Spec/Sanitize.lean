import Verif.Model.Tree
/-! What a user sees of a sanitized tree. -/
namespace JH.Spec

/-- `Reach m l`: the node `m` occurs in the trees `l`, at any depth, in children and in template content, on a path through documents
and elements whose names do not start with `#` (such names cannot be parsed or serialized). -/
inductive Reach (m : Node) : List Node → Prop
  | here {l} : m ∈ l → Reach m l
  | kid {l name ns as kids tpl content} : Node.elem name ns as kids tpl content ∈ l → name.head? ≠ some '#' → Reach m kids → Reach m l
  | content {l name ns as kids content} : Node.elem name ns as kids true content ∈ l → name.head? ≠ some '#' → Reach m content → Reach m l
  | doc {l kids} : Node.doc kids ∈ l → Reach m kids → Reach m l

/-- A name an element may have: not one of the names reserved for other nodes. -/
def ProperName (name : Str) : Prop := name.head? ≠ some '#' ∧ name ≠ c%"!doctype"

/-- The policy allows the attribute `k` on elements named `name`: in an entry for that tag (whatever the case of its name) or for
every tag, or as the forced link relation. -/
def AttrAllowed (lower : Str → Str) (allowed : List (Str × List Str)) (forceRel : List Str) (name k : Str) : Prop :=
  (∃ p ∈ allowed, (p.1 = c%"*" ∨ lower p.1 = lower name) ∧ k ∈ p.2) ∨ (k = c%"rel" ∧ lower name = c%"a" ∧ forceRel ≠ [])

end JH.Spec

namespace JH.Spec

mutual
/-- `p` holds of the node and of every node below it, in children and in template content. -/
def Everywhere (p : Node → Prop) : Node → Prop
  | .elem name ns as kids tpl content => p (.elem name ns as kids tpl content) ∧ EverywhereL p kids ∧ (tpl = true → EverywhereL p content)
  | .doc kids => p (.doc kids) ∧ EverywhereL p kids
  | .text d => p (.text d)
  | .comment d => p (.comment d)
  | .pi d => p (.pi d)
  | .doctype a b c => p (.doctype a b c)
/-- The same for a list. -/
def EverywhereL (p : Node → Prop) : List Node → Prop
  | [] => True
  | n :: ns => Everywhere p n ∧ EverywhereL p ns
end

/-- The nodes an element contains directly: children, and template content. -/
def contents : Node → List Node
  | .elem _ _ _ kids tpl content => if tpl then kids ++ content else kids
  | .doc kids => kids
  | _ => []

/-- Elements outside HTML: in another namespace, or named `svg` or `math`. -/
def Foreign (lower : Str → Str) : Node → Prop
  | .elem name ns _ _ _ _ => (ns ≠ none ∧ ns ≠ some c%"html") ∨ lower name = c%"svg" ∨ lower name = c%"math"
  | _ => False

/-- An element whose name is not in the list of allowed tags. -/
def Disallowed (lower : Str → Str) (allowed : List Str) : Node → Prop
  | .elem name _ _ _ _ _ => lower name ∉ allowed
  | _ => False

mutual
/-- The text of a tree in document order (children, then template content), leaving out what is below the elements `gone`. -/
def keptText (gone : Node → Bool) : Node → Str
  | .text d => d
  | .elem name ns as kids tpl content =>
    if gone (.elem name ns as kids tpl content) then []
    else keptTextL gone kids ++ (if tpl then keptTextL gone content else [])
  | .doc kids => keptTextL gone kids
  | _ => []
/-- The same for a list. -/
def keptTextL (gone : Node → Bool) : List Node → Str
  | [] => []
  | n :: ns => keptText gone n ++ keptTextL gone ns
end

/-- All the text of a tree. -/
def allText (n : Node) : Str := keptText (fun _ => false) n

mutual
/-- The tree with the content and the attributes of the elements `gone` removed; nothing is changed inside elements `stop`. -/
def hollow (stop gone : Node → Bool) : Node → Node
  | .elem name ns as kids tpl content =>
    if stop (.elem name ns as kids tpl content) then .elem name ns as kids tpl content
    else if gone (.elem name ns as kids tpl content) then .elem name ns [] [] tpl []
    else .elem name ns as (hollowL stop gone kids) tpl (if tpl then hollowL stop gone content else content)
  | .doc kids => .doc (hollowL stop gone kids)
  | n => n
/-- The same for a list. -/
def hollowL (stop gone : Node → Bool) : List Node → List Node
  | [] => []
  | n :: ns => hollow stop gone n :: hollowL stop gone ns
end

end JH.Spec
