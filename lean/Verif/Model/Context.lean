import Verif.Model.Url
import Verif.Model.Serialize
import Verif.Model.Pretty
/-! Model of the output contexts of `to_html` and of the escaping helpers of the `JustHTML` class that combine two encodings. -/
namespace JH

/-- parser/__init__.py:367-370 `JustHTML.escape_url_in_js_string`; `none` is the ValueError for a bad quote. -/
def escapeUrlJs (q : Char) (value : Str) : Option Str := escapeJs q (escapeUrl value)

/-- parser/__init__.py:372-387 `JustHTML.clean_url_in_js_string`: `none` is an exception, `some none` the returned `None`. -/
def cleanUrlJs (E : UrlEnv) (T : EntTables) (q : Char) (value : Str) (rule : UrlRule) : Option (Option Str) :=
  match cleanUrlValue E T value rule with
  | none => none
  | some none => some none
  | some (some u) => (escapeJs q u).map some

/-- parser/__init__.py:389-398 `JustHTML.escape_html_text_in_js_string`. -/
def escapeTextJs (q : Char) (value : Str) : Option Str := escapeJs q (escapeText value)

/-- parser/__init__.py:319-327 `JustHTML.escape_attr_value`; `none` is the ValueError for a bad quote. -/
def escapeAttrCall (q : Char) (value : Str) : Option Str := if q = '"' || q = '\'' then some (escapeAttr q value) else none

/-- serializer/html.py:68-78 `HTMLContext`. -/
inductive OutContext | html | jsString | attrValue | url
deriving DecidableEq, Repr

/-- serializer/html.py:434-464: what `to_html` does with the markup of the node, and for the URL context with its text
(`to_text()`: pieces stripped and joined by one space, dom/__init__.py:12-39). `none` is an exception. -/
def inContext (U : Uni) (q : Char) (n : Node) (html : Str) : OutContext → Option Str
  | .html => some html
  | .jsString => escapeJs q html
  | .attrValue => escapeAttrCall q html
  | .url =>
    match toText (stripP U.isSpace) c%" " n with
    | .ok t => some (escapeUrlAttr (stripP U.isSpace t))
    | _ => none

/-- serializer/html.py:424-464 `to_html(context=..., quote=...)` of a node whose parent has text context `ctx`: the markup is computed first
(and may raise, see C04), compact or indented. -/
def toHtmlContext (U : Uni) (ctx : Option Str) (pretty : Option (Nat × Nat)) (c : OutContext) (q : Char) (n : Node) : Option Str :=
  match (match pretty with
    | some (indent, size) => (match n with | .doc kids => toHtmlPrettyDoc U size indent kids | _ => toHtmlPretty U size ctx indent n)
    | none => match toHtmlCompact U ctx n with | .ok s => some s | _ => none) with
  | none => none
  | some html => inContext U q n html c

end JH
