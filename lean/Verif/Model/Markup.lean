import Verif.Model.Escape

/-! Model of markup serialization in /repo/src/justhtml/serializer/html.py and of
/repo/src/justhtml/core/rawtext.py, /repo/src/justhtml/core/text.py. -/
namespace JH

/-- One `out.replace("--", "- -")` (serializer/html.py:124): left to right, non-overlapping. -/
def replaceDashes : Str → Str
  | [] => []
  | [c] => [c]
  | a :: b :: r => if a = '-' ∧ b = '-' then '-' :: ' ' :: '-' :: replaceDashes r else a :: replaceDashes (b :: r)

/-- serializer/html.py:123-124: `while "--" in out: out = out.replace("--", "- -")`. `fuel` bounds the iterations;
`C05_loop_terminates` shows that the length of the data is always enough. -/
def dashLoop : Nat → Str → Str
  | 0, out => out
  | n + 1, out => if isIn ['-', '-'] out then dashLoop n (replaceDashes out) else out

/-- serializer/html.py:118-135 `_serialize_comment_data`. -/
def serializeComment (data : Str) : Str :=
  let out := dashLoop data.length data
  let out := if startsWith ['>'] out || startsWith ['-', '>'] out then ' ' :: out else out
  let out := if endsWith ['<', '!', '-'] out then out ++ [' '] else out
  if endsWith ['-'] out then out ++ [' '] else out

/-- serializer/html.py:142-151 `_serialize_pi_data`. -/
def serializePi (data : Str) : Str := if data.contains '>' then replaceC '>' [' '] data else data

/-- Characters excluded by `_SERIALIZABLE_TAG_NAME_RE` after the first (serializer/html.py:35). -/
def tagNameChar (c : Char) : Bool :=
  !(c = '\t' || c = '\n' || c = '\x0c' || c = '\r' || c = ' ' || c = '/' || c = '>')

/-- Characters allowed by `_SERIALIZABLE_ATTR_NAME_RE` (serializer/html.py:36). -/
def attrNameChar (c : Char) : Bool := tagNameChar c && !(c = '=')

/-- `$` in a Python regular expression also matches before one trailing newline: drop it. -/
def dropNL (s : Str) : Str := match s.reverse with
  | '\n' :: r => r.reverse
  | _ => s

/-- serializer/html.py:35,94-102: `re.match(r"^[A-Za-z][^\t\n\f\r />]*$", name)`. -/
def validTagName (name : Str) : Bool :=
  match dropNL name with
  | [] => false
  | c :: cs => isAsciiAlpha c && cs.all tagNameChar

/-- serializer/html.py:36,94-107: `re.match(r"^[^\t\n\f\r />=]+$", name)`. -/
def validAttrName (name : Str) : Bool :=
  !(dropNL name).isEmpty && (dropNL name).all attrNameChar

/-- serializer/html.py:110-115 `_safe_doctype_name`. -/
def safeDoctypeName (name : Str) : Str := if validTagName name then name else []

/-- serializer/html.py:276-281, the identifiers part of `_serialize_doctype`. -/
def doctypeIds : Option Str → Option Str → Str
  | some p, some s => c%" PUBLIC \"" ++ (escapeAttr '"' p ++ (c%"\" \"" ++ (escapeAttr '"' s ++ ['"'])))
  | some p, none => c%" PUBLIC \"" ++ (escapeAttr '"' p ++ ['"'])
  | none, some s => c%" SYSTEM \"" ++ (escapeAttr '"' s ++ ['"'])
  | none, none => []

/-- serializer/html.py:257-284 `_serialize_doctype`; `name` is the doctype's name after the `or ""` defaulting. -/
def serializeDoctype (name : Str) (pub sys : Option Str) : Str :=
  c%"<!DOCTYPE" ++
    ((if (safeDoctypeName name).isEmpty then [] else ' ' :: safeDoctypeName name) ++ (doctypeIds pub sys ++ ['>']))

/-- Options of `serialize_start_tag` (serializer/html.py:287-297). -/
structure TagOpts where
  quoteAttrValues : Bool := true
  minimizeBoolean : Bool := true
  quoteChar : Option Char := none
  trailingSolidus : Bool := false
  isVoid : Bool := false
  /-- `namespace in {None, "html"}` -/
  htmlNs : Bool := true

/-- serializer/html.py:37-66 `_BOOLEAN_ATTRIBUTES`, as (element or "*", attribute) pairs. -/
def booleanAttrs : List (String × List String) :=
  [("*", ["autofocus", "headingreset", "inert", "itemscope"]),
   ("audio", ["autoplay", "controls", "loop", "muted"]),
   ("button", ["disabled", "formnovalidate"]),
   ("details", ["open"]), ("dialog", ["open"]), ("fieldset", ["disabled"]), ("form", ["novalidate"]),
   ("iframe", ["allowfullscreen"]), ("img", ["controls", "ismap"]),
   ("input", ["alpha", "checked", "disabled", "formnovalidate", "multiple", "readonly", "required"]),
   ("link", ["disabled"]), ("ol", ["reversed"]), ("optgroup", ["disabled"]), ("option", ["disabled", "selected"]),
   ("script", ["async", "defer", "nomodule"]), ("select", ["disabled", "multiple", "required"]),
   ("template", ["shadowrootclonable", "shadowrootcustomelementregistry", "shadowrootdelegatesfocus", "shadowrootserializable"]),
   ("textarea", ["disabled", "readonly", "required"]), ("track", ["default"]),
   ("video", ["autoplay", "controls", "loop", "muted", "playsinline"])]

/-- `key_lower in _BOOLEAN_ATTRIBUTES["*"] or key_lower in boolean_attrs` (serializer/html.py:314). -/
def isBooleanAttr (elem key : Str) : Bool :=
  booleanAttrs.any fun (e, ks) => (e = "*" || e.toList = elem) && ks.any fun k => k.toList = key

/-- serializer/html.py:306-319: is the attribute written without a value? -/
def minimized (U : Uni) (o : TagOpts) (name key : Str) (v : Option Str) : Bool :=
  o.minimizeBoolean &&
    match v with
    | none => true
    | some v => v.isEmpty ||
        (o.htmlNs && isBooleanAttr (U.lower name) (U.lower key) && v.all isAscii && U.lower v = U.lower key)

/-- serializer/html.py:305-332: one attribute. -/
def serializeAttr (U : Uni) (o : TagOpts) (name key : Str) (v : Option Str) : Str :=
  if minimized U o name key v then ' ' :: key
  else
    let val := v.getD []
    if val.isEmpty then ' ' :: key ++ c%"=\"\""
    else if !o.quoteAttrValues && canUnquote val then ' ' :: key ++ '=' :: escapeUnquoted val
    else
      let q := chooseAttrQuote o.quoteChar val
      ' ' :: key ++ '=' :: q :: escapeAttr q val ++ [q]

/-- serializer/html.py:287-338 `serialize_start_tag`; `none` = ValueError. `attrs` lists the dict items in order. -/
def serializeStartTag (U : Uni) (o : TagOpts) (name : Str) (attrs : List (Str × Option Str)) : Option Str :=
  if !validTagName name then none
  else if !attrs.all (fun a => validAttrName a.1) then none
  else some ('<' :: name ++ attrs.flatMap (fun a => serializeAttr U o name a.1 a.2) ++
    (if o.trailingSolidus && o.isVoid then c%" />" else c%">"))

/-- serializer/html.py:341-343 `serialize_end_tag`; `none` = ValueError. -/
def serializeEndTag (name : Str) : Option Str :=
  if validTagName name then some (c%"</" ++ name ++ c%">") else none

/-- core/text.py:7-30 `ascii_lower`. The three branches of the code: ASCII text, text containing U+0130 or U+212A,
and other text, where Python's full `str.lower()` is used. -/
def asciiLower (U : Uni) (s : Str) : Str :=
  if s.all isAscii then U.lower s
  else if s.contains '\u0130' || s.contains '\u212a' then lowerA s
  else U.lower s

/-- `HTML_SPACE_OR_TAG_END_CHARACTERS` (core/constants.py:9). -/
def isTagBoundary (c : Char) : Bool := isHtmlSpace c || c = '/' || c = '>'

/-- core/rawtext.py:24-25: the needle is followed by the end of the text or a tag boundary. -/
def atBoundary : Str → Bool
  | [] => true
  | c :: _ => isTagBoundary c

/-- core/rawtext.py:19-31, the loop. `t` and `l` are the suffixes of `text` and `lower_text` from `start`; `out` the pieces
joined so far. `fuel` bounds the iterations (each advances `start`). Result: output pieces, rest of text, changed. -/
def neutLoop (needle : Str) : Nat → Str → Str → Str → Bool → Str × Str × Bool
  | 0, t, _, out, ch => (out, t, ch)
  | n + 1, t, l, out, ch =>
    match find? needle l with
    | none => (out, t, ch)
    | some k =>
      if atBoundary (t.drop (k + needle.length)) then neutLoop needle n (t.drop (k + 1)) (l.drop (k + 1)) (out ++ t.take k ++ c%"&lt;") true
      else neutLoop needle n (t.drop (k + 1)) (l.drop (k + 1)) out ch

/-- core/rawtext.py:7-37 `neutralize_rawtext_end_tag_sequences(text, tag_name)`. `fold` is the folded copy
`ascii_lower(text)`. -/
def neutralize (fold : Str → Str) (tag : Str) (text : Str) : Str × Bool :=
  let needle := c%"</" ++ tag
  match neutLoop needle (text.length + 1) text (fold text) [] false with
  | (out, rest, ch) => if ch then (out ++ rest, true) else (text, false)

/-- serializer/html.py:32-34 `_LITERAL_TEXT_SERIALIZATION_ELEMENTS`. -/
def literalTextElements : List Str :=
  [c%"iframe", c%"noembed", c%"noframes", c%"plaintext", c%"script", c%"style", c%"xmp"]

/-- serializer/html.py:154-166 `_serialize_text_for_parent`. `parent` is the parent's name if it is an HTML element
(namespace "html"), `none` otherwise. -/
def serializeTextFor (U : Uni) (parent : Option Str) (text : Str) : Str :=
  match parent with
  | none => escapeText text
  | some p =>
    let n := U.lower p
    if literalTextElements.contains n then
      if n = c%"plaintext" then text else (neutralize (asciiLower U) n text).1
    else escapeText text

end JH
