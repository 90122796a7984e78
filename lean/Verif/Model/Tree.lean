import Verif.Model.Py

/-! The DOM as an inductive tree: the nodes of /repo/src/justhtml/dom/__init__.py without parent pointers, used by the
serializer, text extraction and sanitizer models. (Parent pointers and mutation are modelled separately, in
`Verif/Model/Dom.lean`.) -/
namespace JH

/-- dom/__init__.py:133-175, 513-700, 738-752. `None` data is the empty string, attributes are the dict's items in order.
`tpl` says that the node is a `Template` with a `template_content` fragment, whose children are `content`. -/
inductive Node where
  | text (data : Str)
  | comment (data : Str)
  | pi (data : Str)
  | doctype (name : Str) (pub sys : Option Str)
  | doc (kids : List Node)
  | elem (name : Str) (ns : Option Str) (attrs : List (Str × Option Str)) (kids : List Node) (tpl : Bool) (content : List Node)

/-- `namespace in {None, "html"}`. -/
def isHtmlNs (ns : Option Str) : Bool := ns = none || ns = some c%"html"

mutual
/-- Number of nodes. -/
def Node.size : Node → Nat
  | .text _ => 1
  | .comment _ => 1
  | .pi _ => 1
  | .doctype _ _ _ => 1
  | .doc kids => 2 + Node.sizeL kids
  | .elem _ _ _ kids _ content => 3 + Node.sizeL kids + Node.sizeL content
/-- Number of nodes of a list. -/
def Node.sizeL : List Node → Nat
  | [] => 0
  | n :: ns => Node.size n + Node.sizeL ns
end

end JH
