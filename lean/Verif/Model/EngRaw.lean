import Verif.Model.EngText

/-! Model of the raw-text elements, skipped subtrees and framesets in /repo/src/justhtml/parser/engine.py. -/
namespace JH.Eng

/-- parser/engine.py:5291-5296 `_consume_until_end_tag`: the text and the rest. -/
def untilEnd (name s : Str) : Str × Str :=
  match findRawEnd name s with
  | none => (s, [])
  | some (a, b) => (s.take a, s.drop b)

/-- parser/engine.py:5425-5432: the same with the rules of `script`. -/
def untilClose (name s : Str) : Str × Str :=
  match findClose name s with
  | none => (s, [])
  | some (a, b) => (s.take a, s.drop b)

/-- parser/engine.py:5312-5338 `_parse_rawtext_as_text`. -/
def rawtextAsText (name s : Str) : EM Str := do
  let t ← q fun C _ => if C.plan.stripInvisible then stripInvisible (newlines (untilEnd name s).1) else newlines (untilEnd name s).1
  whQ (fun _ _ => !t.isEmpty) (do
    let p ← q fun C s =>
      if !C.fragment && headContent.contains name && !s.bodyExplicit && !s.bodyHasContent && s.head.isSome then s.head.getD 0 else s.curParent
    appendNew p (textNode t))
  pure (untilEnd name s).2

/-- `self._stack = [doc, html, head]` if an element was parsed in the initial head (parser/engine.py:5395-5396, 5443-5444). -/
def backToHead (initial : Bool) : EM Unit := whQ (fun _ s => initial && s.html.isSome && s.head.isSome) stackToHead

/-- parser/engine.py:5361-5374: does this title belong into the head? -/
def titleInHead (name : Str) (C : Cfg) (s : St) : Bool :=
  name = c%"title" && !C.fragment && s.tmodes.isEmpty && s.head.isSome &&
    (s.head = some s.curParent || (!s.bodyExplicit && !s.bodySeen && !s.bodyHasContent))

/-- parser/engine.py:5340-5400 `_parse_rcdata_element` (`self_closing` is always `False` in the call). -/
def rcdataElement (name : Str) (attrs : Attrs) (s : Str) : EM Str := do
  let t ← orErr fun C => cleanText C true (untilEnd name s).1
  let t := if name = c%"textarea" && t.head? = some '\n' then t.tail else t
  iteQ (fun C _ => !C.plan.allowedTags.contains name)
    (do
      let p ← q fun _ s => s.curParent
      whQ (fun _ _ => !t.isEmpty) (appendNew p (textNode t)))
    (do
      let cur ← q fun _ s => s.curParent
      let inHead ← q (titleInHead name)
      let initial ← q fun _ s => inHead && s.head ≠ some cur
      whQ (fun _ _ => !inHead) (repairStack name)
      let p ← q fun _ s => if inHead then s.head.getD 0 else cur
      let node ← insertEl name attrs false p
      whQ (fun _ _ => !t.isEmpty) (appendNew node (textNode t))
      whQ (fun _ s => s.top = node) (modS St.pop)
      backToHead initial
      whQ (fun _ s => name = c%"title" && s.tmode = some .initial) (setTMode .body)
      finishReentry)
  pure (untilEnd name s).2

/-- parser/engine.py:5454-5465 `_raw_head_text_parent`. -/
def rawHeadParent (name : Str) (C : Cfg) (s : St) : Bool :=
  !C.fragment && headContent.contains name && s.head.isSome && s.tmodes.isEmpty && !s.inNoscript && !s.framesetSeen && !s.bodyExplicit &&
    !s.bodySeen && !s.bodyHasContent

/-- `if find_open_index_before_boundary("p", …) is not None: close_until_before_boundary("p", …)`. -/
def closeP : EM Unit := whQ (fun C s => (s.inScope C.E.U c%"p" pScope).isSome) (closeBefore' c%"p" pScope)

/-- parser/engine.py:5402-5452 `_parse_rawtext_element` (without XML coercion). -/
def rawtextElement (name : Str) (attrs : Attrs) (sc : Bool) (s : Str) : EM Str := do
  whQ (fun _ _ => pClosing.contains name) closeP
  whQ (fun _ _ => name = c%"xmp") reconIfDirty
  let inHead ← q (rawHeadParent name)
  let initial ← q fun _ s => inHead && s.head ≠ some s.curParent
  let p ← q fun _ s => if inHead then s.head.getD 0 else s.curParent
  let node ← insertEl name attrs sc p
  let t := nulFix (newlines (untilClose name s).1)
  whQ (fun _ _ => !t.isEmpty) (appendNew node (textNode t))
  whQ (fun _ s => s.top = node) (modS St.pop)
  backToHead initial
  finishReentry
  pure (untilClose name s).2

/-- parser/engine.py:5467-5493 `_parse_plaintext_element`. -/
def plaintextElement (name : Str) (attrs : Attrs) (sc : Bool) (s : Str) : EM Str := do
  closeP
  insertHere' name attrs sc
  reconIfDirty
  let p ← q fun _ s => s.curParent
  whQ (fun _ _ => !(nulFix (newlines s)).isEmpty) (appendNew p (textNode (nulFix (newlines s))))
  pure []

/-- parser/engine.py:5509-5533 `_append_raw_literal_text`. -/
def rawLiteral (t : Str) : EM Unit := do
  let t ← q fun C _ => if C.plan.stripInvisible then stripInvisible (nulFix (newlines t)) else nulFix (newlines t)
  whQ (fun _ _ => !t.isEmpty) (do
    let p ← q fun _ s => if s.framesetSeen && !s.bodyExplicit && s.html.isSome then s.html.getD 0 else s.curParent
    let foster ← q fun C s => if fosterTargets.contains (s.n p).name && !blank t then fosterFor p none C s else none
    match foster with
    | none => appendNew p (textNode t)
    | some (g, i) => fun _ s => ((), (s.add (textNode t)).insertAt g i s.heap.length))

/-- parser/engine.py:5495-5501 `_parse_plaintext_as_text`. -/
def plaintextAsText (s : Str) : EM Str := do
  closeP
  reconIfDirty
  rawLiteral s
  pure []

/-- parser/engine.py:5503-5507 `_parse_raw_literal_text`. -/
def rawLiteralText (name s : Str) : EM Str := do
  rawLiteral (untilEnd name s).1
  pure (untilEnd name s).2

/-- parser/engine.py:6443-6458 `_skip_rawtext`. (`_script_eof_keeps_shell` only chooses between two values that are never told apart.) -/
def skipRawtext (name s : Str) : EM Str := do
  whQ (fun _ _ => (findClose name s).isNone) (modS fun s => { s with eofDropped := true })
  let p ← q fun _ s => s.curParent
  appendBoundary p
  whQ (fun _ _ => (findClose name s).isSome && (name = c%"script" || name = c%"style")) (modS fun s => { s with fosterWs := 0 })
  pure (untilClose name s).2

/-- parser/engine.py:56 `_TAG_NAME_RE`: the name and the rest. -/
def tagName : Str → Option (Str × Str)
  | [] => none
  | c :: r =>
    let stop := fun x => isHtmlSpace x || x = '/' || x = '>'
    if isAsciiLetter c then some (c :: r.takeWhile (fun x => !stop x), r.dropWhile (fun x => !stop x)) else none

/-- What `_skip_subtree` finds: the text after the subtree and whether the input ended in it. -/
abbrev Skipped := Option (Str × Bool)

/-- parser/engine.py:6521-6531: the end of the subtree. -/
def skipDone (s : Str) : Skipped := if asciiStarts c%"<frameset" (lstripP isHtmlSpace s) then none else some (s, false)

/-- parser/engine.py:6460-6531 `_skip_subtree` with `detect_foreign_breakout=True` (the only way it is called, 3415): the loop; `depth` is the number
of open elements of that name. -/
def skipSubF (C : Cfg) (name : Str) : Nat → Nat → Str → Skipped
  | 0, _, _ => none
  | _ + 1, 0, s => skipDone s
  | n + 1, depth + 1, s =>
    match splitAt1 '<' s with
    | none => none
    | some (_, r) =>
      if asciiStarts c%"![cdata[" r then
        match find? c%"]]>" (r.drop 8) with
        | none => some ([], true)
        | some k => skipSubF C name n (depth + 1) (r.drop (8 + k + 3))
      else
        let isEnd := r.head? = some '/'
        let r := if isEnd then r.tail else r
        match tagName r with
        | none => skipSubF C name n (depth + 1) r
        | some (raw, after) =>
          let tag := foldName C raw
          let pos := match splitAt1 '>' after with | none => [] | some (_, x) => x
          if isEnd && tag ≠ name && (breakout.contains tag || tableScopedEnd.contains tag) then none
          else if !isEnd && tag ≠ name && foreignFull.contains tag then none
          else if !isEnd && tag ≠ name && plaintextTags.contains tag then some ([], true)
          else if !isEnd && tag ≠ name && (rcdata.contains tag || C.plan.dropContentTags.contains tag || C.plan.rawtextAsTextTags.contains tag) then
            match findClose tag pos with
            | none => none
            | some (_, b) => skipSubF C name n (depth + 1) (pos.drop b)
          else if tag = name then skipSubF C name n (if isEnd then depth else depth + 2) pos
          else skipSubF C name n (depth + 1) pos

/-- parser/engine.py:6460-6531 `_skip_subtree`, with enough fuel. -/
def skipSubtree (C : Cfg) (name s : Str) : Skipped := skipSubF C name (s.length + 2) 1 s

/-! ### Framesets -/

/-- parser/engine.py:6672-6684 `_foreign_subtree_allows_frameset`. (The order of the walk does not matter; the depth is bounded by the heap.) -/
def foreignOkF (s : St) : Nat → Nat → Bool
  | 0, _ => true
  | n + 1, i => (s.n i).children.all fun c =>
    if s.isText c then (s.n c).data.all (fun x => isHtmlSpace x || x = '\ufffd') else foreignOkF s n c

/-- parser/engine.py:6641-6670 `_body_allows_frameset`. -/
def framesetOkF (U : Uni) (s : St) : Nat → Nat → Bool
  | 0, _ => true
  | n + 1, i => (s.n i).children.all fun c =>
    let m := s.n c
    if s.isText c then blank m.data
    else if m.ns = poNs then false
    else if !isHtmlNs m.ns then foreignOkF s s.heap.length c
    else if m.name = c%"input" then hiddenInput U m.name m.attrs
    else framesetOk.contains m.name && framesetOkF U s n c

/-- parser/engine.py:6638-6670 `_body_allows_frameset(self._body)`. -/
def bodyOk (C : Cfg) (s : St) : Bool := framesetOkF C.E.U s s.heap.length s.body

/-- `for child in body.children: child.parent = None; body.children.clear()`. -/
def St.clearBody (s : St) : St :=
  ((s.n s.body).children.foldl (fun s c => s.upd c fun n => { n with parent := none }) s).upd s.body fun n => { n with children := [] }

/-- parser/engine.py:6600-6619 `_accept_frameset`. -/
def acceptFrameset : EM Bool :=
  iteQ (fun C s => C.fragment || s.framesetSeen || s.framesetBlocked || s.bodyExplicit || (s.n s.body).kind ≠ .element) (pure false)
    (iteQ (fun C s => !bodyOk C s) (pure false)
      (do
        modS St.clearBody
        modS fun s => { s with framesetSeen := true, mFrameset := true }
        markDirty
        stackToHtml
        modS fun s => { s with afterHead := false }
        pure true))

/-- parser/engine.py:6595-6598 `_remove_child`. -/
def removeChild (p c : Nat) : EM Unit := modS fun s =>
  (s.upd p fun n => { n with children := n.children.erase c }).upd c fun n => { n with parent := none }

/-- parser/engine.py:6621-6639 `_accept_fragment_frameset`. -/
def acceptFragmentFrameset : EM Bool :=
  iteQ (fun C s => !C.fragment || C.ctxName ≠ some c%"html" || s.framesetSeen) (pure false)
    (iteQ (fun _ s => (s.n s.body).children.any fun c => !s.isText c) (pure false)
      (iteQ (fun C s => !bodyOk C s) (pure false)
        (do
          modS St.clearBody
          whQ (fun _ s => s.html.isSome && (s.n s.body).kind = .element) (do
            let h ← q fun _ s => s.html.getD 0
            let b ← q fun _ s => s.body
            removeChild h b
            stackToHtml)
          modS fun s => { s with framesetSeen := true, mFrameset := true }
          markDirty
          pure true)))

end JH.Eng
