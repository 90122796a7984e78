import Verif.Model.Py
/-! Model of the parser's stack of open elements, /repo/src/justhtml/parser/engine.py:732-1162 `_CountingStack`. Operations return `none` where
the code raises. Indexes are normalized (the code maps negative ones to `len + index`). A result of -1 or None ("nothing open") is `none`. -/
namespace JH

/-- What the stack reads of a node: its identity, name, namespace, whether its type is `Template`, and `_is_foreign_boundary(node)`
(parser/engine.py:793-803, a function of namespace, name and attributes). These do not change while the node is open. -/
structure Item where
  id : Nat
  name : Str
  ns : Option Str
  tpl : Bool
  boundary : Bool
deriving DecidableEq

/-- parser/engine.py:88 `_HTML_NAMESPACES`. -/
def Item.html (it : Item) : Bool := it.ns = none || it.ns = some c%"html"

/-- parser/engine.py:84 `_PARSER_ONLY_NAMESPACE`. -/
def Item.parserOnly (it : Item) : Bool := it.ns = some c%"justhtml-parser-only"

/-- parser/engine.py:783 (and 891, 955, 981, 993, 1026): a foreign integration point. -/
def Item.foreign (it : Item) : Bool := !it.html && !it.parserOnly && it.boundary

/-- A dict from names to ascending lists of positions. -/
abbrev PosDict := List (Str × List Nat)

/-- `d.get(name)`, with no entry as the empty list (no entry is empty). -/
def dget (d : PosDict) (n : Str) : List Nat := (d.lookup n).getD []

/-- Store a bucket; an empty bucket is deleted (parser/engine.py:961-962, 988-989). -/
def dput (d : PosDict) (n : Str) (v : List Nat) : PosDict :=
  if v.isEmpty then d.filter fun p => p.1 ≠ n
  else if d.any fun p => p.1 = n then d.map fun p => if p.1 = n then (n, v) else p
  else d ++ [(n, v)]

/-- The position index (parser/engine.py:771-790). `node` maps identities to positions. -/
structure Index where
  html : PosDict := []
  other : PosDict := []
  node : List (Nat × Nat) := []
  rendered : List Nat := []
  foreign : List Nat := []

/-- `bisect_left` on an ascending list. -/
def bisectLeft (l : List Nat) (x : Nat) : Nat := (l.takeWhile (· < x)).length

/-- `insort` on an ascending list. -/
def insort (l : List Nat) (x : Nat) : Option (List Nat) := some (l.takeWhile (· ≤ x) ++ x :: l.dropWhile (· ≤ x))

/-- `l.append(x)`. -/
def push (l : List Nat) (x : Nat) : Option (List Nat) := some (l ++ [x])

/-- `l.pop()`. -/
def popLast (l : List Nat) : Option (List Nat) := if l.isEmpty then none else some l.dropLast

/-- `del l[bisect_left(l, x)]`. -/
def delPos (l : List Nat) (x : Nat) : Option (List Nat) :=
  if bisectLeft l x < l.length then some (l.eraseIdx (bisectLeft l x)) else none

/-- `l[bisect_left(l, old)] = new`. -/
def movePos (l : List Nat) (old new : Nat) : Option (List Nat) :=
  if bisectLeft l old < l.length then some (l.set (bisectLeft l old) new) else none

/-- Apply a list operation to the lists of the index that hold the item, and set its entry of `_node_positions` (a `KeyError` for a
missing bucket shows as the operation failing on the empty list). -/
def Index.upd (I : Index) (f : List Nat → Option (List Nat)) (it : Item) (node : List (Nat × Nat)) : Option Index :=
  match f (dget (if it.html then I.html else I.other) it.name), (if it.parserOnly then some I.rendered else f I.rendered),
      (if it.foreign then f I.foreign else some I.foreign) with
  | some b, some r, some g =>
    some { html := if it.html then dput I.html it.name b else I.html
           other := if it.html then I.other else dput I.other it.name b
           node := node, rendered := r, foreign := g }
  | _, _, _ => none

/-- `_node_positions.pop(item, None)`. -/
def nodeDel (d : List (Nat × Nat)) (id : Nat) : List (Nat × Nat) := d.filter fun p => p.1 ≠ id

/-- `_node_positions[item] = position`. -/
def nodePut (d : List (Nat × Nat)) (id pos : Nat) : List (Nat × Nat) :=
  if d.any fun p => p.1 = id then d.map fun p => if p.1 = id then (id, pos) else p else d ++ [(id, pos)]

/-- parser/engine.py:948-955 `_note_top_position`. -/
def Index.noteTop (I : Index) (it : Item) (i : Nat) : Option Index := I.upd (push · i) it (nodePut I.node it.id i)

/-- parser/engine.py:957-967 `_forget_top_position`. -/
def Index.forgetTop (I : Index) (it : Item) (i : Nat) : Option Index :=
  match popLast (dget (if it.html then I.html else I.other) it.name), (if it.parserOnly then some I.rendered else popLast I.rendered) with
  | some b, some r =>
    some { html := if it.html then dput I.html it.name b else I.html
           other := if it.html then I.other else dput I.other it.name b
           node := nodeDel I.node it.id, rendered := r
           foreign := if I.foreign.getLast? = some i then I.foreign.dropLast else I.foreign }
  | _, _ => none

/-- parser/engine.py:969-982 `_note_position_at`. -/
def Index.noteAt (I : Index) (it : Item) (i : Nat) : Option Index := I.upd (insort · i) it (nodePut I.node it.id i)

/-- parser/engine.py:984-994 `_discard_position`. -/
def Index.discard (I : Index) (it : Item) (i : Nat) : Option Index := I.upd (delPos · i) it (nodeDel I.node it.id)

/-- One round of the loop of parser/engine.py:1009-1028: the item moves from position `old` to `new`. -/
def Index.move (I : Index) (it : Item) (old new : Nat) : Option Index := I.upd (movePos · old new) it (nodePut I.node it.id new)

/-- Positions and items from position `i` up. -/
def enumF : Nat → List Item → List (Nat × Item)
  | _, [] => []
  | i, x :: xs => (i, x) :: enumF (i + 1) xs

/-- parser/engine.py:1009-1028 `_renumber_from(first, 1)`: from the top down. -/
def Index.renumberUp (I : Index) (first : Nat) (items : List Item) : Option Index :=
  (enumF first (items.drop first)).reverse.foldlM (fun I p => I.move p.2 (p.1 - 1) p.1) I

/-- parser/engine.py:1009-1028 `_renumber_from(first, -1)`: from the bottom up. -/
def Index.renumberDown (I : Index) (first : Nat) (items : List Item) : Option Index :=
  (enumF first (items.drop first)).foldlM (fun I p => I.move p.2 (p.1 + 1) p.1) I

/-- parser/engine.py:771-790 `_build_position_index`. -/
def Index.build (items : List Item) : Index :=
  ((enumF 0 items).foldlM (fun (I : Index) p => I.noteTop p.2 p.1) {}).getD {}

/-- parser/engine.py:732-769 `_CountingStack`. -/
structure CStack where
  items : List Item
  indexed : Bool
  pCount : Int
  index : Index

/-- parser/engine.py:728 `_STACK_COUNT_THRESHOLD`. -/
def stackThreshold : Nat := 32

/-- `item.name == "p"` as a number. -/
def isP (it : Item) : Int := if it.name = c%"p" then 1 else 0

/-- The sum over a list. -/
def pSum : List Item → Int
  | [] => 0
  | x :: xs => isP x + pSum xs

/-- parser/engine.py:756-769 `__init__`. -/
def CStack.init (items : List Item) : CStack :=
  if items.length < stackThreshold then ⟨items, false, pSum items, {}⟩ else ⟨items, true, pSum items, Index.build items⟩

/-- parser/engine.py:1052-1061 `append`. -/
def CStack.append (s : CStack) (it : Item) : Option CStack :=
  let items := s.items ++ [it]
  let pc := s.pCount + isP it
  if s.indexed then (s.index.noteTop it s.items.length).map fun I => ⟨items, true, pc, I⟩
  else if items.length ≥ stackThreshold then some ⟨items, true, pc, Index.build items⟩
  else some ⟨items, false, pc, s.index⟩

/-- parser/engine.py:1063-1082 `insert`. -/
def CStack.insert (s : CStack) (k : Nat) (it : Item) : Option CStack :=
  let n := min k s.items.length
  let items := s.items.take n ++ it :: s.items.drop n
  let pc := s.pCount + isP it
  if !s.indexed && items.length ≥ stackThreshold then some ⟨items, true, pc, Index.build items⟩
  else if s.indexed then
    if n = s.items.length then (s.index.noteTop it n).map fun I => ⟨items, true, pc, I⟩
    else ((s.index.renumberUp (n + 1) items).bind fun I => I.noteAt it n).map fun I => ⟨items, true, pc, I⟩
  else some ⟨items, false, pc, s.index⟩

/-- parser/engine.py:1084-1102 `__setitem__`. -/
def CStack.set (s : CStack) (k : Nat) (it : Item) : Option CStack :=
  match s.items[k]? with
  | none => none
  | some prev =>
    let pc := if prev.name ≠ it.name then s.pCount - isP prev + isP it else s.pCount
    let items := s.items.set k it
    if s.indexed then ((s.index.discard prev k).bind fun I => I.noteAt it k).map fun I => ⟨items, true, pc, I⟩
    else some ⟨items, false, pc, s.index⟩

/-- parser/engine.py:1104-1116 `pop`, 1118-1131 `remove` once the position is known, and 1133-1162 `__delitem__` with an index: the item at `k` goes. -/
def CStack.delAt (s : CStack) (k : Nat) : Option CStack :=
  match s.items[k]? with
  | none => none
  | some it =>
    let items := s.items.eraseIdx k
    let pc := s.pCount - isP it
    if s.indexed then
      (if k = items.length then s.index.forgetTop it k
        else (s.index.discard it k).bind fun I => I.renumberDown k items).map fun I => ⟨items, true, pc, I⟩
    else some ⟨items, false, pc, s.index⟩

/-- `list.index` (by identity). -/
def listIndex (items : List Item) (id : Nat) : Option Nat := items.findIdx? fun it => it.id = id

/-- parser/engine.py:996-1002 `index_of_node`. -/
def CStack.indexOfNode (s : CStack) (id : Nat) : Option Nat :=
  if s.indexed then s.index.node.lookup id else listIndex s.items id

/-- parser/engine.py:1004-1007 `__contains__`. -/
def CStack.contains (s : CStack) (id : Nat) : Bool :=
  if s.indexed then s.index.node.any fun p => p.1 = id else s.items.any fun it => it.id = id

/-- parser/engine.py:1118-1131 `remove`. -/
def CStack.remove (s : CStack) (id : Nat) : Option CStack :=
  match s.indexOfNode id with
  | none => none
  | some k => s.delAt k

/-- The loop of parser/engine.py:1138-1140: pop `n` times. -/
def CStack.popN : Nat → CStack → Option CStack
  | 0, s => some s
  | n + 1, s => (s.delAt (s.items.length - 1)).bind (CStack.popN n)

/-- parser/engine.py:1133-1162 `__delitem__` with a slice `[a:b]`. -/
def CStack.delSlice (s : CStack) (a b : Nat) : Option CStack :=
  let start := min a s.items.length
  if s.indexed && b ≥ s.items.length then s.popN (s.items.length - start)
  else
    let removed := (s.items.take b).drop start
    let items := s.items.take start ++ s.items.drop (max start b)
    let pc := s.pCount - pSum removed
    some ⟨items, s.indexed, pc, if s.indexed then Index.build items else s.index⟩

/-- The operations of the parser on its stack. -/
inductive StackOp
  | append (it : Item)
  | insert (k : Nat) (it : Item)
  | set (k : Nat) (it : Item)
  | delAt (k : Nat)
  | remove (id : Nat)
  | delSlice (a b : Nat)
  | reset (items : List Item)

/-- One operation. -/
def CStack.step (s : CStack) : StackOp → Option CStack
  | .append it => s.append it
  | .insert k it => s.insert k it
  | .set k it => s.set k it
  | .delAt k => s.delAt k
  | .remove id => s.remove id
  | .delSlice a b => s.delSlice a b
  | .reset items => some (CStack.init items)

/-! ### Queries -/

/-- `for index in range(i, 0, -1): if p(self[index]): return index`. -/
def scanDown (p : Item → Bool) (items : List Item) : Nat → Option Nat
  | 0 => none
  | i + 1 =>
    match items[i + 1]? with
    | some it => if p it then some (i + 1) else scanDown p items i
    | none => scanDown p items i

/-- The scan of the whole stack. -/
def scanTop (p : Item → Bool) (s : CStack) : Option Nat := scanDown p s.items (s.items.length - 1)

/-- `index or None`. -/
def orNone (i : Nat) : Option Nat := if i = 0 then none else some i

/-- `max` where `none` is -1. -/
def optMax : Option Nat → Option Nat → Option Nat
  | none, b => b
  | a, none => a
  | some a, some b => some (max a b)

/-- parser/engine.py:805-814 `last_index_of`. -/
def CStack.lastIndexOf (s : CStack) (name : Str) : Option Nat :=
  if s.indexed then orNone (max ((dget s.index.html name).getLast?.getD 0) ((dget s.index.other name).getLast?.getD 0))
  else scanTop (fun it => it.name = name) s

/-- The last of the positions whose item satisfies `p` (`for index in reversed(positions): if ...: break`). -/
def lastWhere (p : Item → Bool) (items : List Item) (l : List Nat) : Option Nat :=
  l.reverse.find? fun i => match items[i]? with | some it => p it | none => false

/-- parser/engine.py:816-835 `last_html_index_of`. -/
def CStack.lastHtmlIndexOf (s : CStack) (name : Str) (parserOnly : Bool) : Option Nat :=
  if s.indexed then
    let best := (dget s.index.html name).getLast?.getD 0
    orNone (if parserOnly then max best ((lastWhere Item.parserOnly s.items (dget s.index.other name)).getD 0) else best)
  else scanTop (fun it => it.name = name && (it.html || (parserOnly && it.parserOnly))) s

/-- One candidate of the loops of parser/engine.py:850-858. -/
def better (best : Option Nat) (l : List Nat) : Option Nat :=
  match l.getLast? with
  | none => best
  | some i => match best with | none => some i | some b => if i > b then some i else some b

/-- parser/engine.py:837-858 `last_html_index_of_any`. -/
def CStack.lastHtmlIndexOfAny (s : CStack) (names : List Str) : Option Nat :=
  if s.indexed then
    if s.index.html.length < names.length then
      s.index.html.foldl (fun best p => if names.contains p.1 then better best p.2 else best) none
    else names.foldl (fun best n => better best (dget s.index.html n)) none
  else scanTop (fun it => it.html && names.contains it.name) s

/-- parser/engine.py:860-869 `last_html_index`. -/
def CStack.lastHtmlIndex (s : CStack) : Option Nat :=
  if s.indexed then (s.index.html.foldl (fun best p => better best p.2) none).bind orNone
  else scanTop Item.html s

/-- parser/engine.py:871-883 `last_index_of_any`. -/
def CStack.lastIndexOfAny (s : CStack) (names : List Str) : Option Nat :=
  if s.indexed then
    (names.foldl (fun best n => better best (dget s.index.other n)) (names.foldl (fun best n => better best (dget s.index.html n)) none)).bind orNone
  else scanTop (fun it => names.contains it.name) s

/-- parser/engine.py:885-892 `last_foreign_boundary_index`. -/
def CStack.lastForeign (s : CStack) : Option Nat :=
  if s.indexed then s.index.foreign.getLast? else scanTop Item.foreign s

/-- parser/engine.py:894-911 `last_scope_boundary_index`. -/
def CStack.lastScopeBoundary (s : CStack) (names : List Str) : Option Nat :=
  if s.indexed then optMax (s.lastHtmlIndexOfAny names) s.lastForeign
  else scanTop (fun it => if it.html then names.contains it.name else !it.parserOnly && it.boundary) s

/-- parser/engine.py:913-921 `last_rendered_index`. -/
def CStack.lastRendered (s : CStack) : Option Nat :=
  if s.indexed then orNone (s.index.rendered.getLast?.getD 0) else scanTop (fun it => !it.parserOnly) s

/-- parser/engine.py:923-946 `last_template_boundary_index`. -/
def CStack.lastTemplateBoundary (s : CStack) : Option Nat :=
  if s.indexed then
    optMax (lastWhere Item.tpl s.items (dget s.index.html c%"template")) (lastWhere Item.parserOnly s.items (dget s.index.other c%"template"))
  else scanTop (fun it => it.name = c%"template" && (it.parserOnly || (it.tpl && it.html))) s

/-- parser/engine.py:1030-1050 `count_of`. -/
def CStack.countOf (s : CStack) (name : Str) : Int :=
  if name = c%"p" then s.pCount
  else if s.indexed then ((dget s.index.html name).length + (dget s.index.other name).length : Nat)
  else (s.items.countP fun it => it.name = name : Nat)

end JH
