import Verif.Model.Py

/-! What a user sees when walking over a parsed document by `children`, `template_content` and `parent`. -/
namespace JH.Spec

/-- The fields of the nodes of a document: nodes are numbers. -/
structure Doc where
  root : Nat
  kids : Nat → List Nat
  content : Nat → Option Nat
  parent : Nat → Option Nat

/-- One step down: to a child, or to the contents of a template. -/
def Doc.Down (d : Doc) (p c : Nat) : Prop := c ∈ d.kids p ∨ d.content p = some c

/-- What can be reached from the root. -/
inductive Doc.Has (d : Doc) : Nat → Prop
  | root : d.Has d.root
  | down {p c : Nat} : d.Has p → d.Down p c → d.Has c

/-- One or more steps down. -/
inductive Doc.Below (d : Doc) (a : Nat) : Nat → Prop
  | one {b : Nat} : d.Down a b → d.Below a b
  | more {b c : Nat} : d.Below a b → d.Down b c → d.Below a c

/-- The document is a tree of at most `size` nodes, and the pointers up agree with the pointers down. -/
structure Doc.IsTree (d : Doc) (size : Nat) : Prop where
  finite : ∃ l : List Nat, l.length ≤ size ∧ ∀ i, d.Has i → i ∈ l
  once : ∀ p, d.Has p → (d.kids p).Nodup
  back : ∀ p c, d.Has p → d.Down p c → d.parent c = some p
  apart : ∀ p c, d.Has p → c ∈ d.kids p → ∀ q, d.Has q → d.content q ≠ some c
  top : ∀ p, d.Has p → ¬ d.Down p d.root
  acyclic : ∀ i, d.Has i → ¬ d.Below i i

/-- A walk down a tree never comes to a node twice. -/
theorem Doc.IsTree.one_place {d : Doc} {n : Nat} (h : d.IsTree n) {p q c : Nat} (hp : d.Has p) (hq : d.Has q) (h1 : d.Down p c) (h2 : d.Down q c) : p = q := by
  have a := h.back p c hp h1
  have b := h.back q c hq h2
  rw [a] at b; simpa using b

end JH.Spec
