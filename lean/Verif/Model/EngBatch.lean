import Verif.Model.EngMain

/-! parser/engine.py:5979-6039: unwrapping the recorded nodes all at once, which the code does from 32 of them on. -/
namespace JH.Eng

/-- parser/engine.py:6021-6025 and 6033-6037: a node gives up its children, which belong to the node that holds them from then on. -/
def openNode (s : St) (holder c : Nat) : St :=
  (s.upd c fun n => { n with children := [], parent := none }).setParents (s.n c).children holder

/-- parser/engine.py:6027-6038: the loop of `_expanded_children`; the list is `pending` with its end first. The number bounds the steps. -/
def expandLoop (marked : List Nat) (holder : Nat) : Nat → List Nat → List Nat → St → List Nat × St
  | 0, pending, expanded, s => (expanded ++ pending, s)
  | _ + 1, [], expanded, s => (expanded, s)
  | f + 1, c :: l, expanded, s =>
    if marked.contains c then expandLoop marked holder f ((s.n c).children ++ l) expanded (openNode s holder c)
    else expandLoop marked holder f l (expanded ++ [c]) s

/-- How many children there are. -/
def kidCount (s : St) : Nat := (s.heap.map fun n => n.children.length).sum

/-- parser/engine.py:6014-6039 `_expanded_children`. The loop takes each child of a node once, so it ends within the bound. -/
def expandNode (marked nesting : List Nat) (holder c : Nat) (s : St) : List Nat × St :=
  let moved := (s.n c).children
  let s := openNode s holder c
  if nesting.contains c then expandLoop marked holder (moved.length + kidCount s + 1) moved [] s else (moved, s)

/-- parser/engine.py:6004-6010: the children of a node with more than one recorded child. -/
def expandAll (marked nesting : List Nat) (holder : Nat) : List Nat → List Nat → St → List Nat × St
  | [], projected, s => (projected, s)
  | c :: l, projected, s =>
    if marked.contains c then
      let r := expandNode marked nesting holder c s
      expandAll marked nesting holder l (projected ++ r.1) r.2
    else expandAll marked nesting holder l (projected ++ [c]) s

/-- parser/engine.py:5987-5997: the recorded nodes that hold recorded nodes, and the other nodes that do, each with its recorded child if there is one only. -/
def findHolders (s : St) (marked : List Nat) : List Nat → List (Nat × Option Nat) → List Nat → List (Nat × Option Nat) × List Nat
  | [], holders, nesting => (holders, nesting)
  | i :: l, holders, nesting =>
    match (s.n i).parent with
    | none => findHolders s marked l holders nesting
    | some p =>
      if marked.contains p then findHolders s marked l holders (p :: nesting)
      else if holders.any (fun h => h.1 = p) then
        findHolders s marked l (holders.map fun h => if h.1 = p then (p, none) else h) nesting
      else findHolders s marked l (holders ++ [(p, some i)]) nesting

/-- parser/engine.py:5998-6010: one node that holds recorded nodes; `list.index` raises if the only one is not there. -/
def unwrapHolder (marked nesting : List Nat) (s : St) (h : Nat × Option Nat) : St :=
  match h.2 with
  | some c =>
    match (s.n h.1).children.findIdx? (fun x => x = c) with
    | none => { s with err := true }
    | some k =>
      let r := expandNode marked nesting h.1 c s
      r.2.upd h.1 fun n => { n with children := n.children.take k ++ r.1 ++ n.children.drop (k + 1) }
  | none =>
    let r := expandAll marked nesting h.1 (s.n h.1).children [] s
    r.2.upd h.1 fun n => { n with children := r.1 }

/-- parser/engine.py:5986-6012: the batch. -/
def unwrapBatch (s : St) : St :=
  let r := findHolders s s.toUnwrap s.toUnwrap [] []
  r.1.foldl (unwrapHolder s.toUnwrap r.2) s

/-- parser/engine.py:729 `_UNWRAP_BATCH_THRESHOLD`. -/
def batchThreshold : Nat := 32

/-- parser/engine.py:5979-6012 `_unwrap_recorded_nodes`, with the batch. -/
def unwrapRecorded : EM Unit := fun C s => if s.toUnwrap.length < batchThreshold then unwrapAll C s else ((), unwrapBatch s)

/-- parser/engine.py:1694-1703: after the input. -/
def finishB : EM Unit := do
  finishShell
  whQ (fun _ s => s.hasSelected) project
  dropAll
  unwrapRecorded
  finishContext

/-- parser/engine.py:1603-1703 `parse`. -/
def parseB : EM Unit := do
  buildRoot
  iteQ (fun C _ => C.fragment && textContext C) parseTextContext (do
    setup
    parseRange
    finishB)

/-- The result of a parse that unwraps in a batch when the code does. -/
def resultB (C : Cfg) : Node :=
  let s := (parseB C (init C)).2
  treeF s (s.heap.length + 1) s.doc

end JH.Eng
