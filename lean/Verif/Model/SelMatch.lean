import Verif.Model.SelParse
import Verif.Model.DomHeap
import Verif.Model.TextOps
/-! Model of the selector matcher and of queries, /repo/src/justhtml/selector/core.py:614-1318 and 1360-1533, on the DOM heap. Match budgets and caches
are part of the state. A loop that spends a step of the budget in each round is given the budget plus one as the number of rounds, so that
running out of rounds is running out of budget. The field `work` of the state is not in the code: it counts the nodes visited and simple selectors
evaluated, for the claim that the budget bounds the work. -/
namespace JH

/-- The reasons for a `SelectorError` while matching. -/
inductive SErr
  | steps | bytes | depth | noArg | unsupported
deriving DecidableEq

/-- selector/core.py:614-620 `NodeAttributeData`. -/
structure NodeAttrs where
  lower : List (Str × Str) := []
  cls : Option (List Str) := none
  toks : Str → Option (List Str) := fun _ => none

/-- selector/core.py:623-634 `ParentSelectorData`. -/
structure ParentData where
  kids : List Nat := []
  names : List Str := []
  index : Nat → Option Nat := fun _ => none
  firstBy : Str → Option Nat := fun _ => none
  isEmpty : Bool := true
  lastBy : Str → Option Nat := fun _ => none
  prevSib : Nat → Option Nat := fun _ => none
  typeIndex : Nat → Option Nat := fun _ => none

/-- selector/core.py:637-653 `SelectorQueryContext`. The dicts of dicts for ancestors are flat: compound, depth, node. -/
structure SCtx where
  steps : Nat
  bytes : Nat
  work : Nat := 0
  anc : Nat → Nat → Nat → Option (Option Nat) := fun _ _ _ => none
  attrs : Nat → Option NodeAttrs := fun _ => none
  parent : Nat → Option ParentData := fun _ => none
  nth : Option Str → Option (Option (Int × Int)) := fun _ => none
  prev : Nat → Nat → Nat → Option (Nat → Option Nat) := fun _ _ _ => none
  text : Nat → Option Str := fun _ => none

/-- A computation with a context that can raise. -/
def SM (α : Type) := SCtx → Except SErr α × SCtx

instance : Monad SM where
  pure a := fun c => (.ok a, c)
  bind x f := fun c => match x c with
    | (.ok a, c) => f a c
    | (.error e, c) => (.error e, c)

/-- `raise`. -/
def SM.fail {α : Type} (e : SErr) : SM α := fun c => (.error e, c)

/-- Read from the context. -/
def SM.get {α : Type} (f : SCtx → α) : SM α := fun c => (.ok (f c), c)

/-- Change the context. -/
def SM.set (f : SCtx → SCtx) : SM Unit := fun c => (.ok (), f c)

/-- selector/core.py:655-661 `tick`, with one step. -/
def tick : SM Unit := fun c => if c.steps = 0 then (.error .steps, c) else (.ok (), { c with steps := c.steps - 1 })

/-- selector/core.py:663-669 `tick_bytes`. -/
def tickBytes (n : Nat) : SM Unit := fun c => if c.bytes < n then (.error .bytes, c) else (.ok (), { c with bytes := c.bytes - n })

/-- Not in the code: one piece of work is done. -/
def work1 : SM Unit := fun c => (.ok (), { c with work := c.work + 1 })

/-- `name.startswith("#")`. -/
def isHash (s : Str) : Bool := startsWith c%"#" s

/-! ### Data about nodes -/

/-- `dict[key] = value` for a dict read as a function. -/
def fput {α β : Type} [DecidableEq α] (f : α → β) (k : α) (v : β) : α → β := fun x => if x = k then v else f x

/-- selector/core.py:979-988: the local variables of the loop. -/
structure ParentAcc where
  d : ParentData := {}
  counts : Str → Nat := fun _ => 0
  prev : Option Nat := none

/-- selector/core.py:992-1010: one child. -/
def parentStep (U : Uni) (h : Heap) (a : ParentAcc) (c : Nat) : ParentAcc :=
  let o := h.obj c
  let d := { a.d with prevSib := fput a.d.prevSib c a.prev }
  if isHash o.name then
    if o.name = c%"#text" ∧ stripP U.isSpace (o.data.getD []) ≠ [] then { a with d := { d with isEmpty := false } } else { a with d := d }
  else
    let n := U.lower o.name
    let k := a.counts n + 1
    let d := { d with
      isEmpty := false, kids := d.kids ++ [c], names := d.names ++ [n], index := fput d.index c (some (d.kids.length + 1))
      typeIndex := fput d.typeIndex c (some k)
      firstBy := if (d.firstBy n).isSome then d.firstBy else fput d.firstBy n (some c)
      lastBy := fput d.lastBy n (some c) }
    { d := d, counts := fput a.counts n k, prev := some c }

/-- selector/core.py:990-1010: the loop. -/
def parentLoop (U : Uni) (h : Heap) : ParentAcc → List Nat → SM ParentAcc
  | a, [] => pure a
  | a, c :: cs => do
    tick
    work1
    parentLoop U h (parentStep U h a c) cs

/-- selector/core.py:973-1023 `_parent_data`. -/
def parentData (U : Uni) (h : Heap) (p : Nat) : SM ParentData := do
  match ← SM.get fun c => c.parent p with
  | some d => pure d
  | none =>
    let a ← parentLoop U h {} (h.kids p)
    SM.set fun c => { c with parent := fput c.parent p (some a.d) }
    pure a.d

/-- selector/core.py:865-870: the loop over the attributes. -/
def attrLoop (U : Uni) : List (Str × Str) → Dict → SM (List (Str × Str))
  | acc, [] => pure acc
  | acc, (k, v) :: r => do
    tickBytes ((U.lower k).length + (v.getD []).length)
    attrLoop U (if acc.any fun p => p.1 = U.lower k then acc.map fun p => if p.1 = U.lower k then (U.lower k, v.getD []) else p
      else acc ++ [(U.lower k, v.getD [])]) r

/-- The attribute dict of a node, `[]` where there is none. -/
def Heap.attrsOf (h : Heap) (n : Nat) : Dict := ((h.obj n).attrs.map h.dict).getD []

/-- selector/core.py:857-873 `_node_attribute_data`. -/
def nodeAttrs (U : Uni) (h : Heap) (n : Nat) : SM (Option NodeAttrs) :=
  if h.attrsOf n = [] then pure none
  else do
    match ← SM.get fun c => c.attrs n with
    | some d => pure (some d)
    | none =>
      let l ← attrLoop U [] (h.attrsOf n)
      SM.set fun c => { c with attrs := fput c.attrs n (some { lower := l }) }
      pure (some { lower := l })

/-- selector/core.py:894-896 `_split_attribute_tokens`. -/
def splitTokens (U : Uni) (v : Str) : SM (List Str) := do
  tickBytes v.length
  pure (splitWs U.isSpace [] v)

/-- `dict.get(name)`. -/
def lookupS (l : List (Str × Str)) (n : Str) : Option Str := (l.find? fun p => p.1 = n).map (·.2)

/-- selector/core.py:797-806 `_class_tokens`. -/
def classTokens (U : Uni) (h : Heap) (n : Nat) : SM (List Str) := do
  match ← nodeAttrs U h n with
  | none => pure []
  | some d =>
    match d.cls with
    | some ts => pure ts
    | none =>
      let v := (lookupS d.lower c%"class").getD []
      let ts ← splitTokens U v
      SM.set fun c => { c with attrs := fput c.attrs n (some { d with cls := some ts, toks := if v = [] then d.toks else fput d.toks c%"class" (some ts) }) }
      pure ts

/-- selector/core.py:853-855, 875-876 `_attribute_value`. -/
def attrValueOf (U : Uni) (h : Heap) (n : Nat) (name : Str) : SM (Option Str) := do
  match ← nodeAttrs U h n with
  | none => pure none
  | some d => pure (lookupS d.lower name)

/-- selector/core.py:878-892 `_attribute_tokens`. -/
def attrTokens (U : Uni) (h : Heap) (n : Nat) (name v : Str) : SM (List Str) :=
  if v = [] then pure []
  else do
    match ← nodeAttrs U h n with
    | none => pure []
    | some d =>
      match d.toks name with
      | some ts => pure ts
      | none =>
        let ts ← splitTokens U v
        SM.set fun c => { c with attrs := fput c.attrs n (some { d with toks := fput d.toks name (some ts), cls := if name = c%"class" then some ts else d.cls }) }
        pure ts

/-- selector/core.py:823-851: the operators. -/
def matchOp (U : Uni) (h : Heap) (n : Nat) (name v op value : Str) : SM Bool :=
  if op = c%"=" then do
    tickBytes (v.length + value.length)
    pure (v = value)
  else if op = c%"~=" then do
    let ts ← attrTokens U h n name v
    pure (ts.contains value)
  else if op = c%"|=" then do
    tickBytes (v.length + value.length)
    pure (v = value || startsWith (value ++ c%"-") v)
  else if op = c%"^=" then do
    tickBytes (v.length + value.length)
    pure (value ≠ [] && startsWith value v)
  else if op = c%"$=" then do
    tickBytes (v.length + value.length)
    pure (value ≠ [] && endsWith value v)
  else if op = c%"*=" then do
    tickBytes (v.length + value.length)
    pure (value ≠ [] && isIn value v)
  else pure false

/-- selector/core.py:808-851 `_matches_attribute`. -/
def matchAttr (U : Uni) (h : Heap) (n : Nat) (name : Str) (op : Option (Str × Str)) : SM Bool := do
  match ← attrValueOf U h n name with
  | none => pure false
  | some v =>
    match op with
    | none => pure true
    | some (o, value) => matchOp U h n name v o value

/-! ### Text content -/

/-- selector/core.py:1134-1164: the text of a node whose parts are done. -/
def nodeText (U : Uni) (h : Heap) (n : Nat) : SM Str :=
  let o := h.obj n
  if o.name = c%"#text" then
    match o.data with
    | some (x :: xs) => do
      tickBytes (x :: xs).length
      pure (stripP U.isSpace (x :: xs))
    | _ => pure []
  else do
    let t ← SM.get fun c => c.text
    let parts := ((h.kids n ++ o.content.toList).map fun x => (t x).getD []).filter (· ≠ [])
    tickBytes (parts.map List.length).sum
    pure (join c%" " parts)

/-- `text_content_cache[n] = s`. -/
def setText (n : Nat) (s : Str) : SM Unit := SM.set fun c => { c with text := fput c.text n (some s) }

/-- selector/core.py:1127-1178: the loop. -/
def textLoop (U : Uni) (h : Heap) : Nat → List (Nat × Bool) → List Nat → SM Unit
  | 0, _, _ => SM.fail .steps
  | _ + 1, [], _ => pure ()
  | f + 1, (n, done) :: stack, visiting => do
    tick
    work1
    if (← SM.get fun c => c.text n).isSome then textLoop U h f stack visiting
    else if done then
      let s ← nodeText U h n
      setText n s
      textLoop U h f stack (visiting.filter (· ≠ n))
    else if visiting.contains n then
      setText n []
      textLoop U h f stack visiting
    else textLoop U h f ((h.kids n).map (·, false) ++ ((h.obj n).content.toList.map (·, false) ++ (n, true) :: stack)) (n :: visiting)

/-- selector/core.py:1118-1180 `_text_content`. -/
def textContent (U : Uni) (h : Heap) (n : Nat) : SM Str := do
  tick
  work1
  match ← SM.get fun c => c.text n with
  | some s => pure s
  | none =>
    let s ← SM.get fun c => c.steps
    textLoop U h (s + 1) [(n, false)] []
    SM.get fun c => (c.text n).getD []

/-! ### Pseudo-classes -/

/-- selector/core.py:959-964 `_get_element_children`. -/
def elementKids (U : Uni) (h : Heap) (p : Nat) : SM (List Nat) :=
  if h.kids p = [] then pure [] else do
    let d ← parentData U h p
    pure d.kids

/-- selector/core.py:1182-1188 `_is_first_child`. -/
def isFirstChild (U : Uni) (h : Heap) (n : Nat) : SM Bool :=
  match (h.obj n).parent with
  | none => pure false
  | some p => do
    let l ← elementKids U h p
    pure (l.head? = some n)

/-- selector/core.py:1190-1196 `_is_last_child`. -/
def isLastChild (U : Uni) (h : Heap) (n : Nat) : SM Bool :=
  match (h.obj n).parent with
  | none => pure false
  | some p => do
    let l ← elementKids U h p
    pure (l.getLast? = some n)

/-- selector/core.py:1198-1201 `_is_empty`. -/
def isEmptyNode (U : Uni) (h : Heap) (n : Nat) : SM Bool :=
  if h.kids n = [] then pure true else do
    let d ← parentData U h n
    pure d.isEmpty

/-- selector/core.py:1203-1210 `_is_first_of_type`. -/
def isFirstOfType (U : Uni) (h : Heap) (n : Nat) : SM Bool :=
  match (h.obj n).parent with
  | none => pure false
  | some p => do
    let d ← parentData U h p
    pure (d.firstBy (U.lower (h.obj n).name) = some n)

/-- selector/core.py:1212-1219 `_is_last_of_type`. -/
def isLastOfType (U : Uni) (h : Heap) (n : Nat) : SM Bool :=
  match (h.obj n).parent with
  | none => pure false
  | some p => do
    let d ← parentData U h p
    pure (d.lastBy (U.lower (h.obj n).name) = some n)

/-- selector/core.py:1221-1228 `_parse_nth_expression`. -/
def nthExpr (U : Uni) (e : Option Str) : SM (Option (Int × Int)) := do
  match ← SM.get fun c => c.nth e with
  | some r => pure r
  | none =>
    SM.set fun c => { c with nth := fput c.nth e (some (parseNth U e)) }
    pure (parseNth U e)

/-- selector/core.py:1290-1317 `_matches_nth_child`, `_matches_nth_of_type`: `ix` picks the index. -/
def matchNth (U : Uni) (h : Heap) (n : Nat) (arg : Option Str) (ix : ParentData → Nat → Option Nat) : SM Bool :=
  match (h.obj n).parent with
  | none => pure false
  | some p => do
    match ← nthExpr U arg with
    | none => pure false
    | some (a, b) =>
      let d ← parentData U h p
      match ix d n with
      | none => pure false
      | some i => pure (matchesNth i a b)

/-- CPython: `text.replace(old, new)` for a two-character `old`. -/
def replace2 (a b : Char) (r : Str) : Str → Str
  | [] => []
  | [x] => [x]
  | x :: y :: l => if x = a ∧ y = b then r ++ replace2 a b r l else x :: replace2 a b r (y :: l)

/-- selector/core.py:685-691 `_unquote_pseudo_arg`. -/
def unquoteArg (U : Uni) (a : Str) : Str :=
  let a := stripP U.isSpace a
  match a.head? with
  | some q =>
    if 2 ≤ a.length ∧ a.getLast? = some q ∧ (q = '"' ∨ q = '\'') then replace2 '\\' '\\' ['\\'] (replace2 '\\' q [q] (a.tail.dropLast)) else a
  | none => a

/-- selector/core.py:898-957 `_matches_pseudo`. `inner` matches the argument of `:not`. -/
def matchPseudo (U : Uni) (h : Heap) (inner : Sel → Nat → SM Bool) (n : Nat) (name : Str) (arg : Option Str) (sel : Sel) : SM Bool :=
  if name = c%"first-child" then isFirstChild U h n
  else if name = c%"last-child" then isLastChild U h n
  else if name = c%"nth-child" then matchNth U h n arg ParentData.index
  else if name = c%"not" then
    if arg.getD [] = [] then pure true else do
      let b ← inner sel n
      pure !b
  else if name = c%"only-child" then do
    if ← isFirstChild U h n then isLastChild U h n else pure false
  else if name = c%"empty" then isEmptyNode U h n
  else if name = c%"root" then
    match (h.obj n).parent with
    | none => pure false
    | some p => pure ((h.obj p).name = c%"#document" || (h.obj p).name = c%"#document-fragment")
  else if name = c%"contains" then
    match arg with
    | none => SM.fail .noArg
    | some a => do
      tickBytes (unquoteArg U a).length
      if unquoteArg U a = [] then pure true
      else do
        let t ← textContent U h n
        pure (isIn (unquoteArg U a) t)
  else if name = c%"comment" then pure ((h.obj n).name = c%"#comment")
  else if name = c%"first-of-type" then isFirstOfType U h n
  else if name = c%"last-of-type" then isLastOfType U h n
  else if name = c%"nth-of-type" then matchNth U h n arg ParentData.typeIndex
  else if name = c%"only-of-type" then do
    if ← isFirstOfType U h n then isLastOfType U h n else pure false
  else SM.fail .unsupported

/-! ### Selectors -/

/-- selector/core.py:760-795 `_matches_simple`. -/
def matchSimple (U : Uni) (h : Heap) (inner : Sel → Nat → SM Bool) (n : Nat) (s : Simple) : SM Bool := do
  tick
  work1
  let o := h.obj n
  if isHash o.name then
    match s with
    | .pseudo name arg sel => matchPseudo U h inner n name arg sel
    | _ => pure false
  else
    match s with
    | .universal => pure true
    | .tag t => pure (o.name = t || U.lower o.name = t)
    | .id i => pure (((h.attrsOf n).find? fun p => p.1 = c%"id").map (·.2) = some (some i))
    | .cls c => do
      let ts ← classTokens U h n
      pure (ts.contains c)
    | .attr name op => matchAttr U h n name op
    | .pseudo name arg sel => matchPseudo U h inner n name arg sel

/-- selector/core.py:756-758 `_matches_compound`. -/
def matchSimples (U : Uni) (h : Heap) (inner : Sel → Nat → SM Bool) (n : Nat) : List Simple → SM Bool
  | [] => pure true
  | s :: ss => do
    if ← matchSimple U h inner n s then matchSimples U h inner n ss else pure false

/-- selector/core.py:756-758 `_matches_compound`. -/
def matchCompound (U : Uni) (h : Heap) (inner : Sel → Nat → SM Bool) (n : Nat) (c : Compound) : SM Bool := matchSimples U h inner n c.simples

/-- selector/core.py:1098-1111: the loop upwards: what was found, and the nodes passed. `d` is the depth in the cache key. -/
def ancLoop (U : Uni) (h : Heap) (inner : Sel → Nat → SM Bool) (d : Nat) (c : Compound) : Nat → List Nat → List Nat → Option Nat → SM (Option Nat × List Nat)
  | 0, _, _, _ => SM.fail .steps
  | _ + 1, _, path, none => pure (none, path)
  | f + 1, visited, path, some a => do
    tick
    work1
    if visited.contains a then pure (none, path)
    else
      match ← SM.get fun x => x.anc c.key d a with
      | some r => pure (r, path)
      | none =>
        if ← matchCompound U h inner a c then pure (some a, path) else ancLoop U h inner d c f (a :: visited) (path ++ [a]) (h.obj a).parent

/-- selector/core.py:1083-1116 `_closest_matching_ancestor`. -/
def closestAnc (U : Uni) (h : Heap) (inner : Sel → Nat → SM Bool) (d : Nat) (c : Compound) (n : Nat) : SM (Option Nat) := do
  match ← SM.get fun x => x.anc c.key d n with
  | some r => pure r
  | none =>
    let s ← SM.get fun x => x.steps
    let r ← ancLoop U h inner d c (s + 1) [n] [] (h.obj n).parent
    SM.set fun x => { x with anc := fun k e m => if k = c.key ∧ e = d ∧ (m = n ∨ m ∈ r.2) then some r.1 else x.anc k e m }
    pure r.1

/-- selector/core.py:1041-1046 `_previous_element_sibling`. -/
def prevElement (U : Uni) (h : Heap) (n : Nat) : SM (Option Nat) :=
  match (h.obj n).parent with
  | none => pure none
  | some p => do
    let d ← parentData U h p
    pure (d.prevSib n)

/-- selector/core.py:1071-1075 `_compound_tag_name`. -/
def compoundTag : List Simple → Option Str
  | [] => none
  | .tag t :: ss => if t = [] then compoundTag ss else some t
  | _ :: ss => compoundTag ss

/-- selector/core.py:1062-1066: the loop over the children. -/
def prevLoop (U : Uni) (h : Heap) (inner : Sel → Nat → SM Bool) (c : Compound) : (Nat → Option Nat) → Option Nat → List Nat → SM (Nat → Option Nat)
  | m, _, [] => pure m
  | m, last, x :: xs => do
    tick
    work1
    let m := fput m x last
    if isHash (h.obj x).name then prevLoop U h inner c m last xs
    else
      if ← matchCompound U h inner x c then prevLoop U h inner c m (some x) xs else prevLoop U h inner c m last xs

/-- selector/core.py:1057-1069: the cached part of `_previous_matching_sibling`. -/
def prevCached (U : Uni) (h : Heap) (inner : Sel → Nat → SM Bool) (d : Nat) (c : Compound) (n p : Nat) : SM (Option Nat) := do
  match ← SM.get fun x => x.prev p c.key d with
  | some m => pure (m n)
  | none =>
    let m ← prevLoop U h inner c (fun _ => none) none (h.kids p)
    SM.set fun x => { x with prev := fun q k e => if q = p ∧ k = c.key ∧ e = d then some m else x.prev q k e }
    pure (m n)

/-- selector/core.py:1077-1081 `_element_child_names`. -/
def childNames (U : Uni) (h : Heap) (p : Nat) : SM (List Str) :=
  if h.kids p = [] then pure [] else do
    let d ← parentData U h p
    pure d.names

/-- selector/core.py:1048-1069 `_previous_matching_sibling`. -/
def prevMatching (U : Uni) (h : Heap) (inner : Sel → Nat → SM Bool) (d : Nat) (c : Compound) (n : Nat) : SM (Option Nat) :=
  match (h.obj n).parent with
  | none => pure none
  | some p =>
    match compoundTag c.simples with
    | none => prevCached U h inner d c n p
    | some t => do
      let names ← childNames U h p
      if names.contains t then prevCached U h inner d c n p else pure none

/-- selector/core.py:726-754: from a node that matches the last part, leftwards. -/
def matchChain (U : Uni) (h : Heap) (inner : Sel → Nat → SM Bool) (d : Nat) : Complex → Nat → SM Bool
  | .one _, _ => pure true
  | .comb left .desc _, n => do
    match ← closestAnc U h inner d left.last n with
    | none => pure false
    | some a => matchChain U h inner d left a
  | .comb left .child _, n =>
    match (h.obj n).parent with
    | none => pure false
    | some p => do
      if ← matchCompound U h inner p left.last then matchChain U h inner d left p else pure false
  | .comb left .adj _, n => do
    match ← prevElement U h n with
    | none => pure false
    | some s => do
      if ← matchCompound U h inner s left.last then matchChain U h inner d left s else pure false
  | .comb left .sib _, n => do
    match ← prevMatching U h inner d left.last n with
    | none => pure false
    | some s => matchChain U h inner d left s

/-- selector/core.py:712-754 `_matches_complex`. -/
def matchComplex (U : Uni) (h : Heap) (inner : Sel → Nat → SM Bool) (d : Nat) (x : Complex) (n : Nat) : SM Bool := do
  if ← matchCompound U h inner n x.last then matchChain U h inner d x n else pure false

/-- selector/core.py:703: `any(...)` over the list, each a call of `_matches`. -/
def matchAny (U : Uni) (h : Heap) (inner : Sel → Nat → SM Bool) (d : Nat) (n : Nat) : Sel → SM Bool
  | [] => pure false
  | x :: xs => do
    tick
    work1
    if ← matchComplex U h inner d x n then pure true else matchAny U h inner d n xs

/-- selector/core.py:697-710 `_matches`; the first argument is `max_match_depth + 1 - depth`. -/
def matchSel (U : Uni) (h : Heap) : Nat → Sel → Nat → SM Bool
  | 0, _, _ => do
    tick
    work1
    SM.fail .depth
  | d + 1, sel, n => do
    tick
    work1
    match sel with
    | [x] => matchComplex U h (matchSel U h d) d x n
    | l => matchAny U h (matchSel U h d) d n l

/-- selector/core.py:648-653: a new context. -/
def SCtx.new (lim : SelLimits) : SCtx := { steps := lim.maxSteps, bytes := lim.maxBytes }

/-! ### Queries -/

/-- selector/core.py:1380-1383: `:comment`. -/
def Simple.isComment : Simple → Bool
  | .pseudo n _ _ => n = c%"comment"
  | _ => false

/-- selector/core.py:1376-1379: somewhere in a complex selector. -/
def Complex.allowsNon : Complex → Bool
  | .one c => c.simples.any Simple.isComment
  | .comb l _ c => l.allowsNon || c.simples.any Simple.isComment

/-- selector/core.py:1373-1384 `_selector_allows_non_elements`. -/
def allowsNonElements (sel : Sel) : Bool := sel.any Complex.allowsNon

/-- selector/core.py:1486-1493, 1511-1518: what is pushed for a node; the top of the stack comes first. -/
def queryKids (h : Heap) (n : Nat) : List Nat :=
  (if (h.obj n).name = c%"template" ∧ (h.obj n).ns = some c%"html" then (h.obj n).content.toList else []) ++ h.kids n

/-- selector/core.py:1408-1428 and 1495-1518: the loop; `test` decides whether a node is a result. -/
def queryLoop (h : Heap) (test : Nat → SM Bool) : Nat → List Nat → List Nat → List Nat → SM (List Nat)
  | 0, _, _, _ => SM.fail .steps
  | _ + 1, [], _, acc => pure acc
  | f + 1, n :: stack, visited, acc => do
    tick
    work1
    if visited.contains n then queryLoop h test f stack visited acc
    else
      let b ← test n
      queryLoop h test f (queryKids h n ++ stack) (n :: visited) (if b then acc ++ [n] else acc)

/-- selector/core.py:1503-1509: the test of `_query_descendants`. -/
def queryTest (U : Uni) (lim : SelLimits) (h : Heap) (sel : Sel) (n : Nat) : SM Bool :=
  if allowsNonElements sel || !isHash (h.obj n).name then matchSel U h (lim.maxMatchDepth + 1) sel n else pure false

/-- selector/core.py:1416-1419: the test of `_query_descendants_tag`. -/
def tagTest (U : Uni) (h : Heap) (t : Str) (n : Nat) : SM Bool :=
  pure (!isHash (h.obj n).name && ((h.obj n).name = t || U.lower (h.obj n).name = t))

/-- selector/core.py:1387-1428 `_query_descendants_tag`, 1469-1518 `_query_descendants`. -/
def queryFrom (h : Heap) (test : Nat → SM Bool) (root : Nat) : SM (List Nat) := do
  let s ← SM.get fun c => c.steps
  queryLoop h test (s + 1) (queryKids h root) [root] []

/-- selector/core.py:1360-1370 `_is_simple_tag_selector`. -/
def isSimpleTag (U : Uni) (s : Str) : Bool :=
  match s with
  | [] => false
  | c :: cs => isNameStart U c && cs.all fun c => U.isAlnum c || c = '_' || c = '-' || 127 < c.toNat

/-- selector/core.py:1431-1466 `query`, with the default limits as a parameter; `none` is a SelectorError. -/
def query (U : Uni) (lim : SelLimits) (h : Heap) (root : Nat) (s : Str) : Option (List Nat) :=
  let s := stripP U.isSpace s
  if s = [] then none
  else if lim.maxLength < s.length then none
  else if isSimpleTag U s then (queryFrom h (tagTest U h (U.lower s)) root (.new lim)).1.toOption
  else
    match parseSelector U lim s with
    | none => none
    | some sel => (queryFrom h (queryTest U lim h sel) root (.new lim)).1.toOption

/-- selector/core.py:1521-1533 `matches`. -/
def selMatches (U : Uni) (lim : SelLimits) (h : Heap) (n : Nat) (s : Str) : Option Bool :=
  match parseSelector U lim s with
  | none => none
  | some sel => (matchSel U h (lim.maxMatchDepth + 1) sel n (.new lim)).1.toOption

end JH
