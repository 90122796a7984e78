import Verif.Model.Builder

/-! What `element(...)` promises. -/
namespace JH.Spec

/-- The characters that no name of an attribute contains. -/
def nameBreaks : List Char := ['\t', '\n', '\x0c', '\r', ' ', '/', '>', '=']

/-- A name of an attribute; one line feed may follow (the code uses `$` in a regular expression). -/
def AttrName (n : Str) : Prop := ∃ core, (n = core ∨ n = core ++ ['\n']) ∧ core ≠ [] ∧ ∀ c ∈ core, c ∉ nameBreaks

/-- A name of an element. -/
def ElemName (U : Uni) (n : Str) : Prop :=
  ∃ c cs, n = c :: cs ∧ (('a' ≤ c ∧ c ≤ 'z') ∨ ('A' ≤ c ∧ c ≤ 'Z')) ∧ (∀ x ∈ cs, x ∉ ['\t', '\n', '\x0c', '\r', ' ', '/', '>', '[']) ∧ ∀ x ∈ n, U.isSpace x = false

/-- The ways to write an attribute behind the name of an element. -/
inductive Written : Str × Option Str → Str → Prop
  | bare (name : Str) : Written (name, none) (c%"[" ++ name ++ c%"]")
  | plain (name v : Str) : '[' ∉ v → ']' ∉ v → v.head? ≠ some '"' → v.head? ≠ some '\'' → Written (name, some v) (c%"[" ++ name ++ c%"=" ++ v ++ c%"]")
  | quoted (name v : Str) (q : Char) : q = '"' ∨ q = '\'' → q ∉ v → '\\' ∉ v → Written (name, some v) (c%"[" ++ name ++ c%"=" ++ (q :: v) ++ (q :: c%"]"))

/-- `text` stands for an element with this name and these attributes. -/
structure Shorthand (U : Uni) (text tag : Str) (attrs : List (Str × Option Str)) : Prop where
  shape : ∃ parts, List.Forall₂ Written attrs parts ∧ text = tag ++ parts.flatten
  tag : ElemName U tag
  names : ∀ a ∈ attrs, AttrName a.1 ∧ ']' ∉ a.1
  distinct : (attrs.map (·.1)).Nodup

mutual
/-- The nodes that a child stands for, in order: strings become texts, `None` and `False` nothing, and nested lists are laid out flat. Nothing if it contains
something that is no child. -/
def laidOut : Child → Option (List Node)
  | .none => some []
  | .bool b => if b then none else some []
  | .str s => some [.text s]
  | .node n => some [n]
  | .iter l => laidOutL l
  | .bad => none
/-- The nodes that some children stand for. -/
def laidOutL : List Child → Option (List Node)
  | [] => some []
  | c :: l =>
    match laidOut c, laidOutL l with
    | some a, some b => some (a ++ b)
    | _, _ => none
end

/-- The namespaces. -/
def NsIs (U : Uni) (given : Option Str) (ns : Str) : Prop :=
  (given = none ∧ ns = c%"html") ∨ ∃ g, given = some g ∧ ((U.lower g = c%"mathml" ∧ ns = c%"math") ∨ (U.lower g = ns ∧ ns ∈ [c%"html", c%"svg", c%"math"]))

/-- The attributes in the second argument. -/
def givenAttrs : AttrsArg → List (Str × Option Str)
  | .mapping l => l
  | _ => []

/-- The children: the second argument is one if it is neither `None` nor a mapping. -/
def givenKids (attrs : AttrsArg) (children : List Child) : List Child :=
  match attrs with
  | .child c => c :: children
  | _ => children

/-- A tree made with the builder alone. -/
inductive Built (U : Uni) : Node → Prop
  | text (s : Str) : Built U (.text s)
  | comment (s : Str) : Built U (.comment s)
  | doctype {name : Str} {pub sys : Option Str} {n : Node} : buildDoctype name pub sys = some n → Built U n
  | element {name : Str} {attrs : AttrsArg} {children : List Child} {ns : Option Str} {n : Node} {kids : List Node} :
      laidOutL (givenKids attrs children) = some kids → (∀ k ∈ kids, Built U k) →
      buildElement U name attrs children ns = .ok n → Built U n

end JH.Spec
