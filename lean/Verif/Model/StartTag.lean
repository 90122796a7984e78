import Verif.Model.Entities
import Verif.Model.Markup

/-! Model of start-tag scanning in /repo/src/justhtml/parser/stream.py (and parser/scanner.py constants).
The code works on `html` with positions `pos`/`end`; the model works on the suffix `html[pos:end]`. -/
namespace JH

/-- Outcome of a scan: a result, a construct that the input ends in the middle of, or an uncaught ValueError
(from `int()` in numeric character references). -/
inductive Scan (α : Type) where
  | ok (a : α)
  | unclosed
  | error
  deriving DecidableEq, Repr

/-- parser/scanner.py:4 `TAG_NAME_STOP = "\t\n\f />"`. -/
def isTagNameStop (c : Char) : Bool := c = '\t' || c = '\n' || c = '\x0c' || c = ' ' || c = '/' || c = '>'

/-- parser/scanner.py:7 `ATTR_NAME_STOP = "\t\n\f />="`. -/
def isAttrNameStop (c : Char) : Bool := isTagNameStop c || c = '='

/-- parser/scanner.py:8 `ATTR_VALUE_STOP = SPACE + ">"`. -/
def isAttrValueStop (c : Char) : Bool := isHtmlSpace c || c = '>'

/-- `.replace("\0", "\ufffd")`. -/
def nulFix (s : Str) : Str := s.map fun c => if c = '\x00' then '\ufffd' else c

/-- parser/stream.py:384-387: decoding of an attribute value. -/
def decodeAttrValue (U : Uni) (T : EntTables) (raw : Str) : Option Str :=
  (if raw.contains '&' then decodeEntities U T true raw else some raw).map nulFix

/-- `html.find(quote, pos)`: text before and after the first occurrence. -/
def splitAt1 (q : Char) : Str → Option (Str × Str)
  | [] => none
  | c :: cs => if c = q then some ([], cs) else (splitAt1 q cs).map fun (a, b) => (c :: a, b)

/-- parser/stream.py:364-387: the value after an attribute name; `s` is the text after the name and following spaces. -/
def attrValue (U : Uni) (T : EntTables) (s : Str) : Scan (Str × Str) :=
  match s with
  | '=' :: r =>
    match lstripP isHtmlSpace r with
    | [] => .ok ([], [])
    | c :: r' =>
      if c = '"' || c = '\'' then
        match splitAt1 c r' with
        | none => .unclosed
        | some (raw, rest) =>
          match decodeAttrValue U T raw with
          | none => .error
          | some v => .ok (v, rest)
      else
        match decodeAttrValue U T ((c :: r').takeWhile (fun x => !isAttrValueStop x)) with
        | none => .error
        | some v => .ok (v, (c :: r').dropWhile (fun x => !isAttrValueStop x))
  | _ => .ok ([], s)

/-- parser/stream.py:389-390 `if key not in attrs: attrs[key] = value` (dict in insertion order). -/
def setDefault (attrs : List (Str × Str)) (k v : Str) : List (Str × Str) :=
  if attrs.any (fun a => a.1 = k) then attrs else attrs ++ [(k, v)]

/-- parser/stream.py:335-392 `_parse_attrs`. `fuel` bounds the iterations (`parseAttrs` supplies enough). The `islower()`
shortcut is folded into `lower()`. Result: attributes, self-closing flag, rest. -/
def parseAttrsF (U : Uni) (T : EntTables) : Nat → List (Str × Str) → Str → Scan (List (Str × Str) × Bool × Str)
  | 0, _, _ => .unclosed
  | n + 1, acc, s =>
    match lstripP isHtmlSpace s with
    | [] => .unclosed
    | c :: r =>
      if c = '>' then .ok (acc, false, r)
      else if c = '/' && r.head? = some '>' then .ok (acc, true, r.tail)
      else
        let rawKey := (c :: r).takeWhile (fun x => !isAttrNameStop x)
        let after := (c :: r).dropWhile (fun x => !isAttrNameStop x)
        if rawKey.isEmpty then parseAttrsF U T n acc r
        else
          match attrValue U T (lstripP isHtmlSpace after) with
          | .error => .error
          | .unclosed => .unclosed
          | .ok (v, rest) => parseAttrsF U T n (setDefault acc (nulFix (U.lower rawKey)) v) rest

/-- `_parse_attrs` with enough fuel: every iteration consumes at least one character. -/
def parseAttrs (U : Uni) (T : EntTables) (s : Str) : Scan (List (Str × Str) × Bool × Str) :=
  parseAttrsF U T (s.length + 1) [] s

/-- parser/stream.py:305-318 `_parse_start_tag`; `s` is the text after `<`. Result: name, attributes, self-closing, rest. -/
def parseStartTag (U : Uni) (T : EntTables) (s : Str) : Scan (Str × List (Str × Str) × Bool × Str) :=
  let name := s.takeWhile (fun x => !isTagNameStop x)
  if name.isEmpty then .unclosed
  else match parseAttrs U T (s.dropWhile (fun x => !isTagNameStop x)) with
    | .error => .error
    | .unclosed => .unclosed
    | .ok (attrs, sc, rest) => .ok (U.lower name, attrs, sc, rest)

end JH
