import Verif.Model.Py

/-! Model of the escaping helpers of /repo/src/justhtml/serializer/html.py. -/
namespace JH

/-- serializer/html.py:81-82 `_escape_html_chars`: three successive `str.replace`. -/
def escapeHtmlChars (t : Str) : Str :=
  replaceC '>' "&gt;".toList (replaceC '<' "&lt;".toList (replaceC '&' "&amp;".toList t))

/-- serializer/html.py:85-91 `_escape_text`. -/
def escapeText (t : Str) : Str :=
  if !t.contains '&' && !t.contains '<' && !t.contains '>' then t else escapeHtmlChars t

/-- serializer/html.py:228-236 `_choose_attr_quote` (value present). -/
def chooseAttrQuote (forced : Option Char) (v : Str) : Char :=
  match forced with
  | some q => if q = '"' || q = '\'' then q else
      if v.contains '"' && !v.contains '\'' then '\'' else '"'
  | none => if v.contains '"' && !v.contains '\'' then '\'' else '"'

/-- serializer/html.py:239-247 `_escape_attr_value`. -/
def escapeAttr (q : Char) (v : Str) : Str :=
  if !v.contains '&' && !v.contains '<' && !v.contains '>' && !v.contains q then v
  else if q = '"' then replaceC '"' "&quot;".toList (escapeHtmlChars v)
  else replaceC '\'' "&#39;".toList (escapeHtmlChars v)

/-- serializer/html.py:250-254 `_can_unquote_attr_value`: no character of `[ \t\n\f\r"'=>]`. -/
def canUnquote (v : Str) : Bool :=
  v.all fun c => !(isHtmlSpace c || c = '"' || c = '\'' || c = '=' || c = '>')

/-- serializer/html.py:326: escaping of an unquoted attribute value. -/
def escapeUnquoted (v : Str) : Str :=
  replaceC '<' "&lt;".toList (replaceC '&' "&amp;".toList v)

/-- Hex digit used by the literals in `_escape_js_string`. -/
def jsEsc (q c : Char) : Str :=
  if c = '\\' then "\\\\".toList
  else if c = q then ['\\', q]
  else if c = '\n' then "\\n".toList
  else if c = '\r' then "\\r".toList
  else if c = '\t' then "\\t".toList
  else if c = '\x08' then "\\b".toList
  else if c = '\x0c' then "\\f".toList
  else if c = '<' then "\\u003c".toList
  else if c = '>' then "\\u003e".toList
  else if c = '\u2028' then "\\u2028".toList
  else if c = '\u2029' then "\\u2029".toList
  else [c]

/-- serializer/html.py:167-200 `_escape_js_string`; `none` is the ValueError for a bad quote. -/
def escapeJs (q : Char) (v : Str) : Option Str :=
  if q = '"' || q = '\'' then some (v.flatMap (jsEsc q)) else none

end JH
