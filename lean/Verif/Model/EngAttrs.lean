import Verif.Model.EngState

/-! Model of the attribute scanners of /repo/src/justhtml/parser/engine.py:6177-6441. A position is the text that follows it. -/
namespace JH.Eng

/-- parser/engine.py:68 `_TAG_NAME_STOP = _scanner.TAG_NAME_STOP + "\r"`. -/
def isTagStop (c : Char) : Bool := isTagNameStop c || c = '\r'

/-- parser/engine.py:69 `_ATTR_NAME_STOP = _scanner.ATTR_NAME_STOP + "\r"`. -/
def isAttrStop (c : Char) : Bool := isAttrNameStop c || c = '\r'

/-- What an attribute scanner returns: the attributes, whether the tag ends in `/>`, the text after the tag, whether the tag was closed; `err`
says that Python raised (a character reference with too many digits). -/
structure AttrScan where
  attrs : Attrs
  sc : Bool
  rest : Str
  ok : Bool
  err : Bool := false

/-- parser/engine.py:6200-6213 (also 6248-6267, 6368-6383, 6387-6407): the value after an attribute name and the spaces behind it; `none` is an
unclosed quote. -/
def rawValue : Str → Option (Str × Str)
  | '=' :: r =>
    match lstripP isHtmlSpace r with
    | [] => some ([], [])
    | c :: r' =>
      if c = '"' || c = '\'' then splitAt1 c r'
      else some ((c :: r').takeWhile (fun x => !isAttrValueStop x), (c :: r').dropWhile (fun x => !isAttrValueStop x))
  | s => some ([], s)

/-- parser/engine.py:6177-6214 `_skip_attrs`. -/
def skipAttrsF : Nat → Str → AttrScan
  | 0, s => ⟨[], false, s, false, false⟩
  | n + 1, s =>
    match lstripP isHtmlSpace s with
    | [] => ⟨[], false, [], false, false⟩
    | c :: r =>
      if c = '>' then ⟨[], false, r, true, false⟩
      else if c = '/' && r.head? = some '>' then ⟨[], true, r.tail, true, false⟩
      else if c = '/' then skipAttrsF n r
      else
        match rawValue (lstripP isHtmlSpace (r.dropWhile fun x => !isAttrStop x)) with
        | none => ⟨[], false, [], false, false⟩
        | some (_, rest) => skipAttrsF n rest

/-- parser/engine.py:6177-6214 `_skip_attrs`, with enough fuel: every round consumes a character. -/
def skipAttrs (s : Str) : AttrScan := skipAttrsF (s.length + 1) s

/-- parser/engine.py:1255 `_strict_ascii_fold`, and its use on names: a name of the input in lower case. -/
def foldName (C : Cfg) (s : Str) : Str :=
  if C.html.contains '\u0130' || C.html.contains '\u212a' then lowerA s else C.E.U.lower s

/-- `if "&" in value: value = decode_entities_in_text(value, in_attribute=True)`. -/
def decodeVal (C : Cfg) (v : Str) : Option Str := if v.contains '&' then decodeEntities C.E.U C.T true v else some v

/-- parser/engine.py:6216-6278 `_parse_all_attrs`. -/
def allAttrsF (C : Cfg) : Nat → Attrs → Str → AttrScan
  | 0, acc, s => ⟨acc, false, s, false, false⟩
  | n + 1, acc, s =>
    match lstripP isHtmlSpace s with
    | [] => ⟨acc, false, [], false, false⟩
    | c :: r =>
      if c = '>' then ⟨acc, false, r, true, false⟩
      else if c = '/' && r.head? = some '>' then ⟨acc, true, r.tail, true, false⟩
      else if c = '/' then allAttrsF C n acc r
      else
        let key := nulFix (foldName C (c :: r.takeWhile fun x => !isAttrStop x))
        match rawValue (lstripP isHtmlSpace (r.dropWhile fun x => !isAttrStop x)) with
        | none => ⟨acc, false, [], false, false⟩
        | some (raw, rest) =>
          match decodeVal C (newlines raw) with
          | none => ⟨acc, false, rest, false, true⟩
          | some v => allAttrsF C n (if acc.any (fun p => p.1 = key) then acc else acc ++ [(key, some (nulFix v))]) rest

/-- parser/engine.py:6216-6278 `_parse_all_attrs`, with enough fuel. -/
def allAttrs (C : Cfg) (s : Str) : AttrScan := allAttrsF C (s.length + 1) [] s

/-- parser/engine.py:6296-6317 (also 6414-6439): the value that an allowed attribute gets, `none` if it is dropped. -/
def attrOut (C : Cfg) (a : TagAction) (key value : Str) : Option Str :=
  let value := if C.plan.stripInvisible then stripInvisible value else value
  match a.urlAttr key with
  | none => some value
  | some (kind, rule, fast) =>
    match (match fast with | some rel => fastUrl C.E rule rel value | none => none) with
    | some r => r
    | none => sinkValue C.E C.plan.urlPolicy rule a.name key kind value

/-- parser/engine.py:6280-6318 `_sanitize_parsed_attrs`. -/
def sanitizeAttrs (C : Cfg) (a : Option TagAction) (attrs : Attrs) : Attrs :=
  match a with
  | none => attrs
  | some a =>
    if !a.allowed then attrs
    else attrs.filterMap fun p =>
      if a.allowedAttrs.contains p.1 then (attrOut C a p.1 (p.2.getD [])).map fun v => (p.1, some v) else none

/-- parser/engine.py:6320-6441 `_parse_attrs_for_action`: the loop. (Unlike `_parse_all_attrs` it skips `=`, keeps the last of two attributes of the
same name, and does not normalise newlines or NUL in values.) -/
def actionAttrsF (C : Cfg) (a : TagAction) : Nat → Attrs → Str → AttrScan
  | 0, acc, s => ⟨acc, false, s, false, false⟩
  | n + 1, acc, s =>
    match lstripP isHtmlSpace s with
    | [] => ⟨acc, false, [], false, false⟩
    | c :: r =>
      if c = '>' then ⟨acc, false, r, true, false⟩
      else if c = '/' && r.head? = some '>' then ⟨acc, true, r.tail, true, false⟩
      else if c = '/' || c = '=' then actionAttrsF C a n acc r
      else
        let raw := c :: r.takeWhile fun x => !isAttrStop x
        let key := if a.allowedAttrs.contains raw then raw else nulFix (foldName C raw)
        let keepOutput := a.allowedAttrs.contains key
        let keepState := a.preserveState || (!a.allowedAttrs.contains raw && a.stateAttrs.contains key)
        match rawValue (lstripP isHtmlSpace (r.dropWhile fun x => !isAttrStop x)) with
        | none => ⟨acc, false, [], false, false⟩
        | some (v, rest) =>
          if !keepOutput && !keepState then actionAttrsF C a n acc rest
          else
            match decodeVal C v with
            | none => ⟨acc, false, rest, false, true⟩
            | some v =>
              if keepState && !keepOutput then actionAttrsF C a n (dictSet key (some v) acc) rest
              else
                match attrOut C a key v with
                | none => actionAttrsF C a n acc rest
                | some v => actionAttrsF C a n (dictSet key (some v) acc) rest

/-- parser/engine.py:6320-6441 `_parse_attrs_for_action`. -/
def actionAttrs (C : Cfg) (a : Option TagAction) (s : Str) : AttrScan :=
  match a with
  | none => skipAttrs s
  | some a => if !a.scanAttrs then skipAttrs s else actionAttrsF C a (s.length + 1) [] s

end JH.Eng
