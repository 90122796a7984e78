import Verif.Model.Py
import Verif.Model.Escape

/-! Models of small text functions: whitespace collapsing (transforms/__init__.py, serializer/html.py), stripping of
invisible Unicode (sanitizer/url/runtime.py), percent-encoding (urllib.parse.quote as used by serializer/html.py) and
`An+B` matching (selector/core.py). -/
namespace JH

/-- `HTML_FORMATTING_SPACE_CHARACTERS = "\t\n\f\r"` (core/constants.py:8). -/
def isFormattingSpace (c : Char) : Bool := c = '\t' || c = '\n' || c = '\x0c' || c = '\r'

/-- transforms/__init__.py:151-164, the loop of `_collapse_html_space_characters`; `inWs` is `in_ws`. -/
def collapseLoop : Bool → Str → Str
  | _, [] => []
  | inWs, c :: t =>
    if isHtmlSpace c then (if inWs then collapseLoop true t else ' ' :: collapseLoop true t)
    else c :: collapseLoop false t

/-- transforms/__init__.py:141-164 `_collapse_html_space_characters`, with its fast path. -/
def collapse (t : Str) : Str :=
  if !t.any isFormattingSpace && !isIn c%"  " t then t else collapseLoop false t

/-- `str.split()` without arguments: maximal runs of non-space characters. `w` is the current word, reversed. -/
def splitWs (sp : Char → Bool) : Str → Str → List Str
  | w, [] => if w.isEmpty then [] else [w.reverse]
  | w, c :: t =>
    if sp c then (if w.isEmpty then splitWs sp [] t else w.reverse :: splitWs sp [] t)
    else splitWs sp (c :: w) t

/-- serializer/html.py:467-495 `_collapse_html_whitespace` (pretty printing). -/
def collapsePretty (U : Uni) (t : Str) : Str :=
  if t.isEmpty then []
  else if t.contains '\x0b' then stripP (· = ' ') (collapseLoop false t)
  else join [' '] (splitWs U.isSpace [] t)

/-- sanitizer/url/runtime.py:42-45 the character class of `_INVISIBLE_UNICODE_STRIP_REGEX`. -/
def invisibleRanges : List (Nat × Nat) :=
  [(0x061C, 0x061C), (0x200B, 0x200F), (0x202A, 0x202E), (0x2060, 0x2069), (0xFE00, 0xFE0F), (0xFEFF, 0xFEFF), (0xE000, 0xF8FF),
   (0xE0100, 0xE01EF), (0xF0000, 0xFFFFD), (0x100000, 0x10FFFD)]

/-- The regular expression's character class. -/
def isInvisible (c : Char) : Bool := invisibleRanges.any fun r => r.1 ≤ c.toNat && c.toNat ≤ r.2

/-- sanitizer/url/runtime.py:53-58 `_strip_invisible_unicode`. -/
def stripInvisible (v : Str) : Str :=
  if v.all isAscii then v
  else if !v.any isInvisible then v
  else v.filter fun c => !isInvisible c

/-- UTF-8 encoding of one character (`str.encode("utf-8")`; no surrogates). -/
def utf8 (c : Char) : List Nat :=
  let n := c.toNat
  if n < 0x80 then [n]
  else if n < 0x800 then [0xC0 + n / 64, 0x80 + n % 64]
  else if n < 0x10000 then [0xE0 + n / 4096, 0x80 + n / 64 % 64, 0x80 + n % 64]
  else [0xF0 + n / 262144, 0x80 + n / 4096 % 64, 0x80 + n / 64 % 64, 0x80 + n % 64]

/-- Upper-case hexadecimal digit. -/
def hexDigit (n : Nat) : Char := if n < 10 then Char.ofNat (48 + n) else Char.ofNat (55 + n)

/-- urllib.parse: `_ALWAYS_SAFE` (letters, digits, `_.-~`). -/
def alwaysSafe (c : Char) : Bool := isAsciiAlpha c || isDigitC c || c = '_' || c = '.' || c = '-' || c = '~'

/-- urllib.parse.quote: one byte. -/
def quoteByte (safe : Char → Bool) (b : Nat) : Str :=
  if b < 128 && (alwaysSafe (Char.ofNat b) || safe (Char.ofNat b)) then [Char.ofNat b]
  else ['%', hexDigit (b / 16), hexDigit (b % 16)]

/-- `urllib.parse.quote(value, safe=...)` for a `str` value. -/
def urlQuote (safe : Char → Bool) (v : Str) : Str := v.flatMap fun c => (utf8 c).flatMap (quoteByte safe)

/-- The `safe` characters of serializer/html.py:212. -/
def urlSafe (c : Char) : Bool := c%"/:@?&=#+-._~".contains c

/-- serializer/html.py:203-212 `_escape_url_value`. -/
def escapeUrl (v : Str) : Str := if v.isEmpty then [] else urlQuote urlSafe v

/-- serializer/html.py:215-225 `_escape_url_value_for_html_attr`. -/
def escapeUrlAttr (v : Str) : Str := replaceC '&' c%"&amp;" (escapeUrl v)

/-- selector/core.py:1278-1288 `_matches_nth`. Python's `%` is `Int.fmod`. -/
def matchesNth (index a b : Int) : Bool :=
  if a = 0 then index = b
  else if a > 0 then index - b ≥ 0 && (index - b).fmod a = 0
  else index - b ≤ 0 && (index - b).fmod a = 0

end JH
