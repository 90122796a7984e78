import Verif.Model.Tree
import Verif.Model.Markup
import Verif.Spec.Url
import Verif.Spec.Visible

/-! Which trees survive being written as HTML and parsed again (C81). The conditions are those of the HTML standard on what may be nested in
what, for all elements except the ones listed in `ownRules`. -/
namespace JH.Spec

/-- Elements that the statement says nothing about: the parts of a document, of a table, of a form, raw text, and elements with a syntax of
their own. -/
def ownRules : List Str :=
  [c%"html", c%"head", c%"body", c%"frameset", c%"frame", c%"base", c%"basefont", c%"bgsound", c%"link", c%"meta", c%"title", c%"template",
   c%"script", c%"style", c%"noscript", c%"noframes", c%"noembed", c%"iframe", c%"xmp", c%"plaintext", c%"textarea", c%"pre", c%"listing",
   c%"table", c%"caption", c%"colgroup", c%"col", c%"thead", c%"tbody", c%"tfoot", c%"tr", c%"td", c%"th",
   c%"form", c%"button", c%"input", c%"keygen", c%"select", c%"option", c%"optgroup", c%"selectedcontent",
   c%"applet", c%"marquee", c%"object", c%"param", c%"source", c%"track", c%"rb", c%"rt", c%"rtc", c%"rp",
   c%"svg", c%"math", c%"image", c%"menuitem", c%"nobr"]

/-- `h1` to `h6`. -/
def headingNames : List Str := [c%"h1", c%"h2", c%"h3", c%"h4", c%"h5", c%"h6"]

/-- Elements whose start tag ends an open paragraph. -/
def blockNames : List Str :=
  [c%"address", c%"article", c%"aside", c%"blockquote", c%"center", c%"details", c%"dialog", c%"dir", c%"div", c%"dl", c%"fieldset",
   c%"figcaption", c%"figure", c%"footer", c%"header", c%"hgroup", c%"hr", c%"main", c%"menu", c%"nav", c%"ol", c%"p", c%"search",
   c%"section", c%"summary", c%"ul", c%"dd", c%"dt", c%"li"] ++ headingNames

/-- Formatting elements. -/
def formattingNames : List Str :=
  [c%"a", c%"b", c%"big", c%"code", c%"em", c%"font", c%"i", c%"s", c%"small", c%"strike", c%"strong", c%"tt", c%"u"]

/-- Elements without content. -/
def emptyNames : List Str := [c%"area", c%"br", c%"embed", c%"hr", c%"img", c%"wbr"]

/-- A character of a name: ASCII, no capital, no white space, NUL, `/` or `>`. -/
def nameChar (c : Char) : Prop :=
  isAscii c = true ∧ ¬ ('A' ≤ c ∧ c ≤ 'Z') ∧ c ≠ '\t' ∧ c ≠ '\n' ∧ c ≠ '\x0c' ∧ c ≠ '\r' ∧ c ≠ ' ' ∧ c ≠ '\x00' ∧ c ≠ '/' ∧ c ≠ '>'

/-- A tag name in lower case. -/
def PlainTag (name : Str) : Prop := (∃ c r, name = c :: r ∧ 'a' ≤ c ∧ c ≤ 'z') ∧ ∀ c ∈ name, nameChar c

/-- An attribute name in lower case. -/
def PlainAttr (name : Str) : Prop := name ≠ [] ∧ ∀ c ∈ name, nameChar c ∧ c ≠ '='

/-- Text that no parser normalizes: no carriage return and no NUL. -/
def PlainText (t : Str) : Prop := '\r' ∉ t ∧ '\x00' ∉ t

/-- Attributes with different lower-case names and plain values; the value of a boolean attribute is not its name (it would be written in the short form, which
stands for the empty value). -/
def GoodAttrs (tag : Str) (attrs : List (Str × Option Str)) : Prop :=
  (attrs.map (·.1)).Nodup ∧
  ∀ a ∈ attrs, PlainAttr a.1 ∧ ∃ v, a.2 = some v ∧ PlainText v ∧ (isBooleanAttr tag a.1 = true → lowerA v ≠ a.1)

/-- Comment data that can be written as it is. (`!>` at the start is fine in the HTML standard, but not here.) -/
def PlainComment (d : Str) : Prop :=
  PlainText d ∧ isIn c%"--" d = false ∧ startsWith c%">" d = false ∧ startsWith c%"->" d = false ∧ startsWith c%"!>" d = false ∧ endsWith c%"-" d = false

/-- Is this a text node? -/
def isTextNode : Node → Bool
  | .text _ => true
  | _ => false

/-- May an element of this name be put inside these elements (innermost first)? A block is not inside a paragraph; a heading is not directly inside a
heading; a list item is in a list or at least not in another item; a link is not in a link; no formatting element is nested three times. -/
def MayNest (anc : List Str) (name : Str) : Prop :=
  (name ∈ blockNames → c%"p" ∉ anc) ∧
  (name ∈ headingNames → ∀ p ∈ anc.head?, p ∉ headingNames) ∧
  (name = c%"li" → (∃ p ∈ anc.head?, p ∈ [c%"ul", c%"ol", c%"menu", c%"dir"]) ∨ c%"li" ∉ anc) ∧
  (name = c%"dd" ∨ name = c%"dt" → (∃ p ∈ anc.head?, p = c%"dl") ∨ c%"dd" ∉ anc ∧ c%"dt" ∉ anc) ∧
  (name = c%"a" → c%"a" ∉ anc) ∧
  (name ∈ formattingNames → (anc.filter (· = name)).length < 3)

mutual
/-- A node that may be put inside the elements `anc` (innermost first). -/
def Good (anc : List Str) : Node → Prop
  | .text t => t ≠ [] ∧ PlainText t
  | .comment d => PlainComment d
  | .elem name ns attrs kids tpl content =>
    ns = some c%"html" ∧ tpl = false ∧ content = [] ∧ PlainTag name ∧ name ∉ ownRules ∧ GoodAttrs name attrs ∧ MayNest anc name ∧
    (name ∈ emptyNames → kids = []) ∧ GoodL (name :: anc) kids
  | .pi _ => False
  | .doctype _ _ _ => False
  | .doc _ => False
/-- Siblings: no two texts side by side. -/
def GoodL (anc : List Str) : List Node → Prop
  | [] => True
  | n :: ns => Good anc n ∧ (isTextNode n = true → ∀ m ∈ ns.head?, isTextNode m = false) ∧ GoodL anc ns
end

/-! ### Trees that a policy leaves alone (C82) -/

/-- A link written with visible ASCII characters other than the backslash, which, for a browser, is relative to the host of the page or has one of these schemes. -/
def PlainLink (schemes : List Str) (v : Str) : Prop :=
  v ≠ [] ∧ (∀ c ∈ v, '!' ≤ c ∧ c ≤ '~' ∧ c ≠ '\\') ∧ (∀ sc, browserScheme v = some sc → sc ∈ schemes) ∧ networkPath v = false

/-- The attributes of an element of this name: each is in the table for this name or for `*`, its value is visible; `href` and `src` are plain links. -/
def HarmlessAttrs (table : List (Str × List Str)) (schemes : List Str) (name : Str) (attrs : List (Str × Option Str)) : Prop :=
  ∀ a ∈ attrs, (∃ p ∈ table, (p.1 = c%"*" ∨ p.1 = name) ∧ a.1 ∈ p.2) ∧
    ∀ v, a.2 = some v → ShowsAll v ∧ (a.1 = c%"href" → PlainLink schemes v) ∧ (a.1 = c%"src" → PlainLink [] v)

mutual
/-- Only these tags and harmless attributes; no comment, nothing invisible. -/
def Harmless (tags : List Str) (table : List (Str × List Str)) (schemes : List Str) : Node → Prop
  | .text t => ShowsAll t
  | .elem name _ attrs kids _ _ => name ∈ tags ∧ HarmlessAttrs table schemes name attrs ∧ HarmlessL tags table schemes kids
  | _ => False
/-- All of them. -/
def HarmlessL (tags : List Str) (table : List (Str × List Str)) (schemes : List Str) : List Node → Prop
  | [] => True
  | n :: ns => Harmless tags table schemes n ∧ HarmlessL tags table schemes ns
end

end JH.Spec
