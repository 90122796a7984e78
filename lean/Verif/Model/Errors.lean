import Verif.Model.EngText
/-! Model of the scan for parse errors (`collect_errors` and `strict`): /repo/src/justhtml/parser/engine.py:1337-1354 and 1443-1605. A
position is modelled by the text that follows it; `lt` and the other offsets are computed from its length. -/
namespace JH.Eng

/-- A `ParseError` of the scan (core/types.py; the message and the reference to the source are not modelled; `tree` says that the category
is "treebuilder"). -/
structure ScanErr where
  code : Str
  line : Nat
  col : Nat
  tag : Option Str := none
  tree : Bool := false
  endCol : Option Nat := none
deriving DecidableEq

/-- The arguments of `_emit_error` (parser/engine.py:1443-1451). -/
structure Emit where
  code : Str
  pos : Nat
  tag : Option Str := none
  tree : Bool := false
  endPos : Option Nat := none
deriving DecidableEq

/-- parser/engine.py:1344-1351: the starts of the lines after the first; `s` is the text from `base` on. -/
def moreStarts : Nat → Nat → Str → List Nat
  | 0, _, _ => []
  | n + 1, base, s =>
    match find? c%"\n" s with
    | none => []
    | some k => (base + k + 1) :: moreStarts n (base + k + 1) (s.drop (k + 1))

/-- parser/engine.py:1341-1352 `self._line_starts`. -/
def lineStarts (html : Str) : List Nat := 0 :: moreStarts (html.length + 1) 0 html

/-- parser/engine.py:1337-1354 `_line_col_at_pos`. (`bisect_right` on a sorted list: the number of entries that are at most `pos`.) -/
def lineCol (html : Str) (pos : Nat) : Nat × Nat :=
  let pos := if pos ≥ html.length then html.length - 1 else pos
  let starts := lineStarts html
  let i := (starts.filter (· ≤ pos)).length - 1
  (i + 1, pos - starts.getD i 0 + 1)

/-- parser/engine.py:1456-1472: the error that is appended. -/
def mkErr (html : Str) (e : Emit) : ScanErr :=
  let lc := lineCol html e.pos
  let ec := match e.endPos with
    | none => none
    | some p => if (lineCol html p).1 = lc.1 then some ((lineCol html p).2 + 1) else none
  { code := e.code, line := lc.1, col := lc.2, tag := e.tag, tree := e.tree, endCol := ec }

/-- parser/engine.py:1443-1472 `_emit_error`. -/
def emit (html : Str) (max : Nat) (errs : List ScanErr) (e : Emit) : List ScanErr :=
  if max = 0 || errs.length ≥ max then errs else errs ++ [mkErr html e]

/-- parser/engine.py:1474-1481 `_emit_null_errors`; `s` is the text from `base` on. -/
def nullEmits : Nat → Nat → Str → List Emit
  | 0, _, _ => []
  | n + 1, base, s =>
    match find? c%"\x00" s with
    | none => []
    | some k => { code := c%"unexpected-null-character", pos := base + k } :: nullEmits n (base + k + 1) (s.drop (k + 1))

/-- parser/engine.py:1588-1594 `_read_tag_name` (the name; `islower() … else lower()`). -/
def readName (U : Uni) (s : Str) : Str := U.lower (s.takeWhile fun c => !isTagStop c)

/-- parser/engine.py:1596-1601 `_is_self_closing_source_tag`, for the text between the name and `>`. -/
def selfClosing (s : Str) : Bool := (rstripP isHtmlSpace s).getLast? = some '/'

/-- parser/engine.py:1488-1503: the check for a doctype. -/
def doctypeEmits (U : Uni) (html : Str) : List Emit :=
  let rest := html.dropWhile isHtmlSpace
  let first := html.length - rest.length
  if rest.isEmpty || asciiStarts c%"<!doctype" rest then []
  else match rest with
    | '<' :: c :: r =>
      if U.isAlpha c then
        match findTagEnd none r with
        | none => [{ code := c%"expected-doctype-but-got-start-tag", pos := html.length - 1, tag := some (readName U (c :: r)), tree := true }]
        | some t =>
          [{ code := c%"expected-doctype-but-got-start-tag", pos := first + 2 + t, tag := some (readName U (c :: r)), tree := true, endPos := some (first + 2 + t) }]
      else [{ code := c%"expected-doctype-but-got-chars", pos := first, tree := true }]
    | _ => [{ code := c%"expected-doctype-but-got-chars", pos := first, tree := true }]

/-- parser/engine.py:1505-1506 `open_tags` and `open_tag_positions` (a name without positions is not in the dictionary). -/
structure OpenTags where
  tags : List Str
  at_ : Str → List Nat

/-- parser/engine.py:1508-1514 `truncate_open_tags`. -/
def OpenTags.truncate (o : OpenTags) (i : Nat) : OpenTags :=
  { tags := o.tags.take i
    at_ := (o.tags.drop i).reverse.foldl (fun f removed => fun n => if n = removed then (f n).dropLast else f n) o.at_ }

/-- parser/engine.py:1584-1586. -/
def OpenTags.push (o : OpenTags) (name : Str) : OpenTags :=
  { tags := o.tags ++ [name], at_ := fun n => if n = name then o.at_ n ++ [o.tags.length] else o.at_ n }

/-- parser/engine.py:1573-1582: a boundary at `i` (if any) is outside the paragraph at `p`. -/
def outside (p : Nat) : Option Nat → Bool
  | none => true
  | some i => decide (i < p)

/-- parser/engine.py:1570-1583: a start tag that closes a paragraph. (The largest boundary position is below the position of the `p` iff
all are.) -/
def OpenTags.closeP (o : OpenTags) (name : Str) : OpenTags :=
  if pClosing.contains name then
    match (o.at_ c%"p").getLast? with
    | none => o
    | some p =>
      if pScope.all fun b => outside p (o.at_ b).getLast? then o.truncate p else o
  else o

/-- parser/engine.py:1516-1586: the loop. `total` is the length of the input, `s` the text from `pos` on. -/
def scanLoop (U : Uni) (total : Nat) : Nat → OpenTags → Str → List Emit
  | 0, _, _ => []
  | n + 1, o, s =>
    match find? c%"<" s with
    | none => []
    | some k =>
      let lt := total - (s.drop k).length
      match s.drop (k + 1) with
      | [] => []
      | ch :: r =>
        if ch = '!' then
          if startsWith c%"--" r then
            match commentEnd r with
            | none => [{ code := c%"eof-in-comment", pos := total - 1 }]
            | some c => scanLoop U total n o (r.drop (c + 3))
          else
            match findTagEnd none r with
            | none => [{ code := c%"eof-in-tag", pos := total - 1 }]
            | some t => scanLoop U total n o (r.drop (t + 1))
        else if ch = '/' then
          if !(r.head?.any U.isAlpha) then
            match findTagEnd none r with
            | none => scanLoop U total n o []
            | some t => scanLoop U total n o (r.drop (t + 1))
          else
            let name := readName U r
            let after := r.drop name.length
            match findTagEnd none after with
            | none => [{ code := c%"eof-in-tag", pos := total - 1 }]
            | some t =>
              let ps := o.at_ name
              if name = c%"br" || ps.isEmpty then
                { code := c%"unexpected-end-tag", pos := lt, tag := some name, tree := true, endPos := some (lt + 2 + name.length + t) } ::
                  scanLoop U total n o (after.drop (t + 1))
              else scanLoop U total n (o.truncate (ps.getLast?.getD 0)) (after.drop (t + 1))
        else if !U.isAlpha ch then scanLoop U total n o (ch :: r)
        else
          let name := readName U (ch :: r)
          let after := (ch :: r).drop name.length
          match findTagEnd none after with
          | none => [{ code := c%"eof-in-tag", pos := total - 1 }]
          | some t =>
            let o1 := o.closeP name
            let o2 := if !voids.contains name && !selfClosing (after.take t) then o1.push name else o1
            scanLoop U total n o2 (after.drop (t + 1))

/-- parser/engine.py:1483-1586 `_collect_basic_errors`: the calls of `_emit_error`, in order. -/
def scanEmits (U : Uni) (fragment : Bool) (html : Str) : List Emit :=
  nullEmits (html.length + 1) 0 html ++ (if fragment then [] else doctypeEmits U html) ++
    scanLoop U html.length (html.length + 1) ⟨[], fun _ => []⟩ html

/-- parser/engine.py:1603-1605: the errors of a parse (`max` is 0 unless errors are collected). -/
def parseErrors (U : Uni) (fragment : Bool) (max : Nat) (html : Str) : List ScanErr :=
  if max = 0 then [] else (scanEmits U fragment html).foldl (emit html max) []

/-- parser/__init__.py:414-418: the key of the sort is line, column and index. -/
def errLe (a b : ScanErr) : Bool := a.line < b.line || (a.line = b.line && a.col ≤ b.col)

/-- parser/__init__.py:409-421: an error goes before the first one of the later errors that is not smaller. -/
def insertErr (e : ScanErr) : List ScanErr → List ScanErr
  | [] => [e]
  | b :: l => if errLe e b then e :: b :: l else b :: insertErr e l

/-- parser/__init__.py:409-421 `_sorted_errors` (Python's sort is stable; here it is a sort by insertion). -/
def sortedErrors (l : List ScanErr) : List ScanErr := l.foldr insertErr []

/-- parser/__init__.py:205-218: `doc.errors`, for a parse without transforms that report errors. -/
def docErrors (U : Uni) (fragment : Bool) (max : Nat) (html : Str) : List ScanErr := sortedErrors (parseErrors U fragment max html)

/-- parser/__init__.py:217-218: the error that `strict=True` raises, if any. -/
def strictError (U : Uni) (fragment : Bool) (max : Nat) (html : Str) : Option ScanErr := (docErrors U fragment max html).head?

end JH.Eng
