import Verif.Model.DomHeap
/-! What the DOM API promises, in terms of the fields of nodes. -/
namespace JH.Spec

/-- `h'` is reached from `h` by calls of the API on existing nodes, all of them `ok`. Calls that raise are included: they are judged by the heap they
leave behind. -/
inductive Calls (ok : Heap → DomOp → Prop) : Heap → Heap → Prop
  | refl (h : Heap) : Calls ok h h
  | call {h h1 h2 : Heap} {fuel : Nat} {op : DomOp} {r : Option Unit} : Calls ok h h1 → (∀ n ∈ op.operands, n < h1.next) → ok h1 op →
      h1.step fuel op = some (h2, r) → Calls ok h h2

/-- Any heap that a program can reach. -/
def Reachable (h : Heap) : Prop := Calls (fun _ _ => True) {} h

/-- The node a call puts somewhere. -/
def placed : DomOp → Option Nat
  | .append _ n => some n
  | .insertBefore _ n _ => some n
  | .replace _ n _ => some n
  | _ => none

/-- The call does not insert the contents of a template somewhere else. -/
def Tidy (h : Heap) (op : DomOp) : Prop := ∀ n t, placed op = some n → (h.obj t).content ≠ some n

/-- Any heap reached without ever inserting the contents of a template elsewhere. -/
def TidyReachable (h : Heap) : Prop := Calls Tidy {} h

/-- `a` is a proper ancestor of `b`, following `parent`. -/
inductive Above (h : Heap) : Nat → Nat → Prop
  | parent {a b : Nat} : (h.obj b).parent = some a → Above h a b
  | up {a p b : Nat} : (h.obj b).parent = some p → Above h a p → Above h a b

/-- `b` is below `a`, following `children`. -/
inductive Below (h : Heap) : Nat → Nat → Prop
  | child {a b : Nat} {l : List Nat} : (h.obj a).children = some l → b ∈ l → Below h a b
  | down {a c b : Nat} {l : List Nat} : (h.obj a).children = some l → c ∈ l → Below h c b → Below h a b

/-- `b` is below `a`, following `children` and `template_content`. -/
inductive Inside (h : Heap) : Nat → Nat → Prop
  | child {a b : Nat} {l : List Nat} : (h.obj a).children = some l → b ∈ l → Inside h a b
  | content {a b : Nat} : (h.obj a).content = some b → Inside h a b
  | trans {a b c : Nat} : Inside h a b → Inside h b c → Inside h a c

/-- What a forest of nodes is: everyone listed as a child of exactly one node, once, and pointing back to it; every parent pointer leads to a node that
lists the child (or whose template contents it is); and nobody is above or below itself. -/
structure Forest (h : Heap) : Prop where
  back : ∀ p l c, (h.obj p).children = some l → c ∈ l → (h.obj c).parent = some p
  once : ∀ p l, (h.obj p).children = some l → l.Nodup
  one : ∀ p q l m c, (h.obj p).children = some l → (h.obj q).children = some m → c ∈ l → c ∈ m → p = q
  listed : ∀ c p, (h.obj c).parent = some p → (∃ l, (h.obj p).children = some l ∧ c ∈ l) ∨ ((h.obj p).kind = .template ∧ (h.obj p).content = some c)
  acyclicUp : ∀ n, ¬ Above h n n
  acyclicDown : ∀ n, ¬ Below h n n

/-- What is on a node besides its place: a document or a fragment has no attributes, and neither have comments and text. -/
structure Label where
  kind : Kind
  name : Str
  ns : Option Str
  data : Option Str
  attrs : Dict
  endTag : Bool
  selfClosing : Bool

def labelOf (h : Heap) (n : Nat) : Label :=
  { kind := (h.obj n).kind, name := (h.obj n).name, ns := (h.obj n).ns, data := (h.obj n).data
    attrs := if (h.obj n).kind = .element ∨ (h.obj n).kind = .template then ((h.obj n).attrs.map h.dict).getD [] else []
    endTag := (h.obj n).endTag, selfClosing := (h.obj n).selfClosing }

/-- A tree: label, children, and the contents of a template (at most one tree). -/
inductive Tree
  | mk (l : Label) (children : List Tree) (content : List Tree)

mutual
/-- Read from `a` downwards, the heap is the tree `t`. -/
inductive Reads (h : Heap) : Nat → Tree → Prop
  | mk {a : Nat} {cs ct : List Tree} : ReadsL h ((h.obj a).children.getD []) cs → ReadsL h (h.obj a).content.toList ct → Reads h a (.mk (labelOf h a) cs ct)
inductive ReadsL (h : Heap) : List Nat → List Tree → Prop
  | nil : ReadsL h [] []
  | cons {a : Nat} {l : List Nat} {t : Tree} {ts : List Tree} : Reads h a t → ReadsL h l ts → ReadsL h (a :: l) (t :: ts)
end

/-- Nothing on a node is different, its place included; nor is its attribute dict. -/
def Untouched (h h' : Heap) (n : Nat) : Prop := h'.obj n = h.obj n ∧ ∀ d, (h.obj n).attrs = some d → h'.dict d = h.dict d

end JH.Spec

namespace JH.Spec

/-- `node` now stands in `s` between `before` and `after`; it is gone from wherever it was, and nothing else is different. -/
structure MovedTo (h h' : Heap) (s node : Nat) (before after : List Nat) : Prop where
  here : (h'.obj s).children = some (before ++ node :: after)
  gone : ∀ p l, p ≠ s → (h.obj p).children = some l → (h'.obj p).children = some (l.filter (· ≠ node))
  parent : (h'.obj node).parent = some s
  parents : ∀ n, n ≠ node → (h'.obj n).parent = (h.obj n).parent
  labels : ∀ n, labelOf h' n = labelOf h n ∧ (h'.obj n).content = (h.obj n).content

/-- The children of `frag` now stand in `s` between `before` and `after`; `frag` is empty, and nothing else is different. -/
structure Poured (h h' : Heap) (s frag : Nat) (src before after : List Nat) : Prop where
  here : (h'.obj s).children = some (before ++ src ++ after)
  empty : (h'.obj frag).children = some []
  others : ∀ p l, p ≠ s → p ≠ frag → (h.obj p).children = some l → (h'.obj p).children = some l
  parent : ∀ n ∈ src, (h'.obj n).parent = some s
  parents : ∀ n, n ∉ src → n ≠ frag → (h'.obj n).parent = (h.obj n).parent
  labels : ∀ n, labelOf h' n = labelOf h n ∧ (h'.obj n).content = (h.obj n).content

/-- `node` was taken out of `s`, and nothing else is different. -/
structure TakenOut (h h' : Heap) (s node : Nat) (before after : List Nat) : Prop where
  here : (h'.obj s).children = some (before ++ after)
  others : ∀ p l, p ≠ s → (h.obj p).children = some l → (h'.obj p).children = some l
  parent : (h'.obj node).parent = none
  parents : ∀ n, n ≠ node → (h'.obj n).parent = (h.obj n).parent
  labels : ∀ n, labelOf h' n = labelOf h n ∧ (h'.obj n).content = (h.obj n).content

end JH.Spec
