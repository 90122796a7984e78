import Verif.Model.Py
/-! Model of the mutable DOM, /repo/src/justhtml/dom/__init__.py: nodes are cells of a heap named by numbers, so that sharing, parent pointers and
cycles are visible. `children is None` is `none`. Source positions (`_metadata`) are not modelled; a doctype's data is a string. A call returns
`none` while it has not finished within the given number of steps, and otherwise the heap and what was returned, `none` for an exception. -/
namespace JH

/-- The node classes of dom/__init__.py:133 `Node` (used for doctypes), 513 `Document`, 528 `DocumentFragment`, 543 `Comment`, 557
`ProcessingInstruction`, 573 `Element`, 669 `Template` and 738 `Text`. -/
inductive Kind
  | plain | document | fragment | comment | pi | element | template | text
deriving DecidableEq

/-- A node. `attrs` refers to a dict of the heap. -/
structure Obj where
  kind : Kind := .text
  name : Str := []
  ns : Option Str := none
  data : Option Str := none
  attrs : Option Nat := none
  children : Option (List Nat) := none
  parent : Option Nat := none
  content : Option Nat := none
  endTag : Bool := false
  selfClosing : Bool := false

/-- An attribute dict. -/
abbrev Dict := List (Str × Option Str)

/-- The heap: nodes `0 … next-1` and dicts `0 … nextDict-1` exist. -/
structure Heap where
  obj : Nat → Obj := fun _ => {}
  next : Nat := 0
  dict : Nat → Dict := fun _ => []
  nextDict : Nat := 0

/-- Assign to attributes of one node. -/
def Heap.mod (h : Heap) (a : Nat) (f : Obj → Obj) : Heap := { h with obj := fun n => if n = a then f (h.obj n) else h.obj n }

/-- `node.parent = p`. -/
def Heap.setParent (h : Heap) (a : Nat) (p : Option Nat) : Heap := h.mod a fun o => { o with parent := p }

/-- `node.children[:] = l`. -/
def Heap.setKids (h : Heap) (a : Nat) (l : List Nat) : Heap := h.mod a fun o => { o with children := some l }

/-- `node.template_content = c`. -/
def Heap.setContent (h : Heap) (a : Nat) (c : Option Nat) : Heap := h.mod a fun o => { o with content := c }

/-- The children, `[]` where there is no list. -/
def Heap.kids (h : Heap) (a : Nat) : List Nat := (h.obj a).children.getD []

/-- A new node. -/
def Heap.alloc (h : Heap) (o : Obj) : Heap × Nat :=
  ({ h with obj := fun n => if n = h.next then o else h.obj n, next := h.next + 1 }, h.next)

/-- A new dict. -/
def Heap.allocDict (h : Heap) (d : Dict) : Heap × Nat :=
  ({ h with dict := fun n => if n = h.nextDict then d else h.dict n, nextDict := h.nextDict + 1 }, h.nextDict)

/-- The result of a call. -/
abbrev Res (α : Type) := Option (Heap × Option α)

/-- Sequencing: an exception ends the call. -/
def Res.andThen {α β : Type} : Res α → (Heap → α → Res β) → Res β
  | none, _ => none
  | some (h, none), _ => some (h, none)
  | some (h, some a), f => f h a

/-! ### Constructors -/

/-- Whether the class has a list of children and an attribute dict (dom/__init__.py:163-175, 586-596, 747-752). -/
def Kind.container : Kind → Bool
  | .document | .fragment | .element | .template => true
  | _ => false

/-- dom/__init__.py:152-175 `Node.__init__` (names of the special classes: 517, 532, 547, 561, 750), 586-596 `Element.__init__`, 672-685
`Template.__init__`, 747-752 `Text.__init__`. A `Node` used directly is a doctype. -/
def Heap.create (h : Heap) (k : Kind) (name : Str) (ns : Option Str) (data : Option Str) (attrs : Dict) : Heap × Nat :=
  let hd := if k.container then ((h.allocDict attrs).1, some (h.allocDict attrs).2) else (h, none)
  let o : Obj := { kind := k, name := name, ns := ns, data := data, attrs := hd.2, children := if k.container then some [] else none }
  let r := hd.1.alloc o
  if k = .template ∧ ns = some c%"html" then
    let hf := r.1.allocDict []
    let rf := hf.1.alloc { kind := .fragment, name := c%"#document-fragment", attrs := some hf.2, children := some [], parent := some r.2 }
    (rf.1.setContent r.2 (some rf.2), r.2)
  else r

/-! ### Mutation -/

/-- dom/__init__.py:200-204: is `node` met on the way up? -/
def walkUp (h : Heap) (node : Nat) : Nat → Option Nat → Option Bool
  | 0, _ => none
  | _ + 1, none => some false
  | f + 1, some c => if c = node then some true else walkUp h node f (h.obj c).parent

/-- dom/__init__.py:206-214: take `node` out of the children of `p`, with its old index. -/
def Heap.detach (h : Heap) (p : Option Nat) (node : Nat) : Heap × Option Nat :=
  match p with
  | none => (h, none)
  | some p =>
    match (h.obj p).children with
    | none => (h, none)
    | some l =>
      match l.idxOf? node with
      | none => (h, none)
      | some i => (h.setKids p (l.eraseIdx i), some i)

/-- dom/__init__.py:187-216 `_adopt_child`: the old parent and the old index. -/
def Heap.adopt (fuel : Nat) (h : Heap) (self node : Nat) : Res (Option Nat × Option Nat) :=
  if node = self then some (h, none)
  else
    let o := h.obj node
    if o.parent = none ∧ h.kids node = [] ∧ (o.kind ≠ .template ∨ o.content = none) then some (h, some (none, none))
    else
      match walkUp h node fuel (some self) with
      | none => none
      | some true => some (h, none)
      | some false =>
        let r := h.detach o.parent node
        some (r.1.setParent node none, some (o.parent, r.2))

/-- `for child in children: child.parent = self`. -/
def Heap.setParents (h : Heap) (l : List Nat) (p : Nat) : Heap := l.foldl (fun h c => h.setParent c (some p)) h

/-- dom/__init__.py:222: the index of the reference node, or the end. -/
def refIndex (kids : List Nat) : Option Nat → Option Nat
  | none => some kids.length
  | some r => kids.idxOf? r

/-- dom/__init__.py:218-227 `_insert_fragment`. -/
def Heap.insertFragment (fuel : Nat) (h : Heap) (self frag : Nat) (ref : Option Nat) : Res Unit :=
  Res.andThen (h.adopt fuel self frag) fun h _ =>
    match refIndex (h.kids self) ref with
    | none => some (h, none)
    | some i =>
      let src := h.kids frag
      let h1 := (h.setKids frag []).setParents src self
      some (h1.setKids self ((h1.kids self).take i ++ src ++ (h1.kids self).drop i), some ())

/-- dom/__init__.py:177-185 `append_child`. A text node has no such method. -/
def Heap.append (fuel : Nat) (h : Heap) (self node : Nat) : Res Unit :=
  if (h.obj self).kind = .text then some (h, none)
  else
    match (h.obj self).children with
    | none => some (h, some ())
    | some _ =>
      if (h.obj node).kind = .fragment then h.insertFragment fuel self node none
      else Res.andThen (h.adopt fuel self node) fun h _ =>
        some ((h.setKids self (h.kids self ++ [node])).setParent node (some self), some ())

/-- `if old_parent is self and old_index is not None and old_index < index: index -= 1` (dom/__init__.py:442-443 and 478-479). -/
def shiftIndex (self index : Nat) (old : Option Nat × Option Nat) : Nat :=
  match old.2 with
  | some j => if old.1 = some self ∧ j < index then index - 1 else index
  | none => index

/-- dom/__init__.py:411-445 `insert_before`. -/
def Heap.insertBefore (fuel : Nat) (h : Heap) (self node : Nat) (ref : Option Nat) : Res Unit :=
  match (h.obj self).children, ref with
  | none, _ => some (h, none)
  | some _, none => h.append fuel self node
  | some kids, some r =>
    if node = r then some (h, some ())
    else
      match kids.idxOf? r with
      | none => some (h, none)
      | some i =>
        if (h.obj node).kind = .fragment then h.insertFragment fuel self node (some r)
        else Res.andThen (h.adopt fuel self node) fun h old =>
          let i := shiftIndex self i old
          some ((h.setKids self ((h.kids self).take i ++ node :: (h.kids self).drop i)).setParent node (some self), some ())

/-- dom/__init__.py:308-311 `remove_child`. -/
def Heap.remove (h : Heap) (self node : Nat) : Res Unit :=
  if (h.obj self).kind = .text then some (h, none)
  else
    match (h.obj self).children with
    | none => some (h, some ())
    | some l =>
      match l.idxOf? node with
      | none => some (h, none)
      | some i => some ((h.setKids self (l.eraseIdx i)).setParent node none, some ())

/-- dom/__init__.py:447-483 `replace_child`. -/
def Heap.replace (fuel : Nat) (h : Heap) (self new old : Nat) : Res Unit :=
  match (h.obj self).children with
  | none => some (h, none)
  | some kids =>
    match kids.idxOf? old with
    | none => some (h, none)
    | some i =>
      if new = old then some (h, some ())
      else if (h.obj new).kind = .fragment then
        Res.andThen (h.insertFragment fuel self new (some old)) fun h _ => h.remove self old
      else Res.andThen (h.adopt fuel self new) fun h o =>
        some (((h.setKids self ((h.kids self).set (shiftIndex self i o) new)).setParent new (some self)).setParent old none, some ())

/-! ### Cloning -/

/-- The attributes of a clone: dom/__init__.py:500, 659, 687 (the override, or a copy); a document and a fragment start afresh (521, 536). -/
def Heap.cloneAttrs (h : Heap) (a : Nat) (override : Option Dict) : Dict :=
  if (h.obj a).kind = .element ∨ (h.obj a).kind = .template then
    match override, (h.obj a).attrs with
    | some d, _ => d
    | none, some d => h.dict d
    | none, none => []
  else []

/-- `clone_node(deep=False)`: dom/__init__.py:489-510, 519-525, 534-540, 549-554, 563-570, 658-666, 686-699, 852-856. The parent, the children and the
contents of a template are not copied; a new HTML template has new, empty contents. -/
def Heap.shallow (h : Heap) (a : Nat) (override : Option Dict) : Heap × Nat :=
  let o := h.obj a
  let r := h.create o.kind o.name o.ns o.data (h.cloneAttrs a override)
  (r.1.mod r.2 fun x => { x with endTag := o.endTag, selfClosing := o.selfClosing }, r.2)

/-- dom/__init__.py:722-731: clone the children of a node under `target`, collecting the pairs that are `Node`s. -/
def Heap.cloneKids (h : Heap) (target : Nat) : List Nat → Heap × List (Nat × Nat)
  | [] => (h, [])
  | c :: cs =>
    let r := h.shallow c none
    let h1 := (r.1.setKids target (r.1.kids target ++ [r.2])).setParent r.2 (some target)
    let rest := h1.cloneKids target cs
    (rest.1, if (h.obj c).kind = .text then rest.2 else (c, r.2) :: rest.2)

/-- dom/__init__.py:709-712: replace the contents of a cloned template by a clone of the source's. The empty fragment the constructor made is then
unreferenced and is collected: its cell is reset. -/
def Heap.cloneContent (h : Heap) (src target : Nat) : Heap × List (Nat × Nat) :=
  match (h.obj src).content with
  | none => (h, [])
  | some c =>
    if (h.obj src).kind = .template ∧ (h.obj target).kind = .template then
      let r := h.shallow c none
      let h0 := match (h.obj target).content with | some f => r.1.mod f fun _ => {} | none => r.1
      ((h0.setContent target (some r.2)).setParent r.2 (some target), [(c, r.2)])
    else (h, [])

/-- dom/__init__.py:706-735: the loop; the top of the stack is the head of the list. -/
def Heap.cloneLoop : Nat → Heap → List (Nat × Nat) → Option Heap
  | _, h, [] => some h
  | 0, _, _ :: _ => none
  | f + 1, h, (src, target) :: rest =>
    let r := h.cloneContent src target
    if r.1.kids src = [] ∨ (r.1.obj target).children = none then Heap.cloneLoop f r.1 (r.2 ++ rest)
    else
      let k := r.1.cloneKids target (r.1.kids src)
      Heap.cloneLoop f k.1 (k.2 ++ r.2 ++ rest)

/-- `clone_node(deep, override_attrs)`: dom/__init__.py:489-510 and the methods of the subclasses, 702-735 `_clone_subtree_iterative`. A comment, processing
instruction or text has nothing below it and is cloned alike. Returns the heap and the clone. -/
def Heap.cloneNode (fuel : Nat) (h : Heap) (a : Nat) (deep : Bool) (override : Option Dict) : Res Nat :=
  if deep then
    let r := h.shallow a none
    match Heap.cloneLoop fuel r.1 [(a, r.2)] with
    | none => none
    | some h' => some (h', some r.2)
  else
    let r := h.shallow a override
    some (r.1, some r.2)

/-! ### Histories -/

/-- A call of the DOM API, or an assignment to a node's attributes or data. -/
inductive DomOp
  | create (k : Kind) (name : Str) (ns : Option Str) (data : Option Str) (attrs : Dict)
  | append (self node : Nat)
  | insertBefore (self node : Nat) (ref : Option Nat)
  | replace (self new old : Nat)
  | remove (self node : Nat)
  | clone (a : Nat) (deep : Bool) (override : Option Dict)
  | setAttr (a : Nat) (key : Str) (value : Option Str)
  | setData (a : Nat) (data : Option Str)

/-- `d[key] = value`. -/
def dictPut (d : Dict) (key : Str) (value : Option Str) : Dict :=
  if d.any fun p => p.1 = key then d.map fun p => if p.1 = key then (key, value) else p else d ++ [(key, value)]

/-- One call. -/
def Heap.step (fuel : Nat) (h : Heap) : DomOp → Res Unit
  | .create k name ns data attrs => some ((h.create k name ns data attrs).1, some ())
  | .append self node => h.append fuel self node
  | .insertBefore self node ref => h.insertBefore fuel self node ref
  | .replace self new old => h.replace fuel self new old
  | .remove self node => h.remove self node
  | .clone a deep override => Res.andThen (h.cloneNode fuel a deep override) fun h _ => some (h, some ())
  | .setAttr a key value =>
    match (h.obj a).attrs with
    | none => some (h, none)
    | some d => some ({ h with dict := fun n => if n = d then dictPut (h.dict d) key value else h.dict n }, some ())
  | .setData a data => some (h.mod a fun o => { o with data := data }, some ())

/-- The nodes a call is given. -/
def DomOp.operands : DomOp → List Nat
  | .create .. => []
  | .append s n => [s, n]
  | .insertBefore s n r => s :: n :: r.toList
  | .replace s n o => [s, n, o]
  | .remove s n => [s, n]
  | .clone a _ _ => [a]
  | .setAttr a _ _ => [a]
  | .setData a _ => [a]

end JH
