import Verif.Model.Py
/-! Model of /repo/src/justhtml/parser/encoding.py: choosing the encoding of a byte stream. Bytes are numbers; positions are
replaced by suffixes of the data together with the absolute offset where the code compares it with a cap. -/
namespace JH

abbrev Bytes := List Nat

/-- A bytes literal of the source. -/
def ascii (s : Str) : Bytes := s.map Char.toNat

/-- parser/encoding.py:12 `_ASCII_WHITESPACE`. -/
def bSpace (b : Nat) : Bool := b = 0x09 || b = 0x0A || b = 0x0C || b = 0x0D || b = 0x20

/-- parser/encoding.py:15-19 `_ascii_lower`; also `bytes.lower()` on one byte. -/
def bLower (b : Nat) : Nat := if 0x41 ≤ b && b ≤ 0x5A then b + 0x20 else b

/-- parser/encoding.py:22-24 `_is_ascii_alpha`. -/
def bAlpha (b : Nat) : Bool := 0x61 ≤ bLower b && bLower b ≤ 0x7A

/-- parser/encoding.py:34-43 `_strip_ascii_whitespace`. -/
def bStrip (v : Bytes) : Bytes := ((v.dropWhile bSpace).reverse.dropWhile bSpace).reverse

/-- parser/encoding.py:59-94: the label table, in the order of the tests. -/
def encLabels : List (List Str × Str) :=
  [([c%"utf-7", c%"utf7", c%"x-utf-7"], c%"windows-1252"),
   ([c%"utf-8", c%"utf8"], c%"utf-8"),
   ([c%"iso-8859-1", c%"iso8859-1", c%"latin1", c%"latin-1", c%"l1", c%"cp819", c%"ibm819"], c%"windows-1252"),
   ([c%"windows-1252", c%"windows1252", c%"cp1252", c%"x-cp1252"], c%"windows-1252"),
   ([c%"iso-8859-2", c%"iso8859-2", c%"latin2", c%"latin-2"], c%"iso-8859-2"),
   ([c%"euc-jp", c%"eucjp"], c%"euc-jp"),
   ([c%"utf-16", c%"utf16"], c%"utf-16"),
   ([c%"utf-16le", c%"utf16le"], c%"utf-16le"),
   ([c%"utf-16be", c%"utf16be"], c%"utf-16be")]

/-- parser/encoding.py:46-94 `normalize_encoding_label` for a `str` label. -/
def normLabel (U : Uni) (label : Str) : Option Str :=
  let s := stripP U.isSpace label
  if s.isEmpty then none else (encLabels.find? fun e => e.1.contains (U.lower s)).map (·.2)

/-- parser/encoding.py:50-51 `label.decode("ascii", "ignore")`. -/
def decodeAscii (b : Bytes) : Str := (b.filter (· < 128)).map Char.ofNat

/-- parser/encoding.py:97-107 `_normalize_meta_declared_encoding`. -/
def normMeta (U : Uni) (label : Bytes) : Option Str :=
  match normLabel U (decodeAscii label) with
  | none => none
  | some e =>
    if [c%"utf-16", c%"utf-16le", c%"utf-16be", c%"utf-32", c%"utf-32le", c%"utf-32be"].contains e then some c%"utf-8" else some e

/-- parser/encoding.py:110-117 `_sniff_bom`. -/
def sniffBom (data : Bytes) : Option (Str × Nat) :=
  if data.take 3 = [0xef, 0xbb, 0xbf] then some (c%"utf-8", 3)
  else if data.take 2 = [0xff, 0xfe] then some (c%"utf-16le", 2)
  else if data.take 2 = [0xfe, 0xff] then some (c%"utf-16be", 2)
  else none

/-- `bytes.find(needle)`: the text before and after the first occurrence. -/
def bFind (needle : Bytes) : Bytes → Option (Bytes × Bytes)
  | [] => if needle.isEmpty then some ([], []) else none
  | c :: t =>
    if needle.isPrefixOf (c :: t) then some ([], (c :: t).drop needle.length)
    else (bFind needle t).map fun r => (c :: r.1, r.2)

/-- parser/encoding.py:120-168 `_extract_charset_from_content`. -/
def extractCharset (content : Bytes) : Option Bytes :=
  let s := content.map fun b => if bSpace b then 0x20 else bLower b
  match bFind (ascii c%"charset") s with
  | none => none
  | some (_, r) =>
    match r.dropWhile bSpace with
    | 0x3D :: r =>
      match r.dropWhile bSpace with
      | [] => none
      | q :: r =>
        if q = 0x22 || q = 0x27 then (if r.contains q then some (r.takeWhile (· ≠ q)) else none)
        else some ((q :: r).takeWhile fun b => !(bSpace b || b = 0x3B))
    | _ => none

/-- parser/encoding.py:175 `max_total_scan` and `max_non_comment`. -/
def maxScan : Nat := 65536
def maxNonComment : Nat := 1024

/-- parser/encoding.py:199-215 and 231-247: skip to the end of a tag, over quoted text. Arguments: open quote, offset, count, rest. -/
def skipTag : Option Nat → Nat → Nat → Bytes → Nat × Nat × Bytes
  | _, k, nc, [] => (k, nc, [])
  | q, k, nc, ch :: t =>
    if k ≥ maxScan || nc ≥ maxNonComment then (k, nc, ch :: t)
    else match q with
      | none =>
        if ch = 0x22 || ch = 0x27 then skipTag (some ch) (k + 1) (nc + 1) t
        else if ch = 0x3E then (k + 1, nc + 1, t)
        else skipTag none (k + 1) (nc + 1) t
      | some q' => skipTag (if ch = q' then none else some q') (k + 1) (nc + 1) t

/-- The attributes of a `<meta>` tag seen so far. -/
structure MetaAttrs where
  charset : Option Bytes := none
  httpEquiv : Option Bytes := none
  content : Option Bytes := none

/-- How the attribute loop ends: at `>` (the rest after it), elsewhere, or in an unclosed quote. -/
inductive MetaEnd
  | gt (a : MetaAttrs) (rest : Bytes)
  | other
  | unclosed

/-- parser/encoding.py:315-320: store one attribute. -/
def MetaAttrs.set (a : MetaAttrs) (name : Bytes) (v : Option Bytes) : MetaAttrs :=
  if name = ascii c%"charset" then { a with charset := v.map bStrip }
  else if name = ascii c%"http-equiv" then { a with httpEquiv := v }
  else if name = ascii c%"content" then { a with content := v }
  else a

/-- parser/encoding.py:282-313: the value after an attribute name (spaces skipped). `none` in the first place: the data ends after `=`;
`some none`: unclosed quote; otherwise the value and the rest. -/
def metaValue (s : Bytes) : Option (Option (Option Bytes × Bytes)) :=
  match s with
  | 0x3D :: r =>
    match r.dropWhile bSpace with
    | [] => none
    | q :: r =>
      if q = 0x22 || q = 0x27 then
        if r.contains q then some (some (some (r.takeWhile (· ≠ q)), (r.dropWhile (· ≠ q)).drop 1)) else some none
      else
        let isEnd := fun b => bSpace b || b = 0x3E || b = 0x3C
        some (some (some ((q :: r).takeWhile fun b => !isEnd b), (q :: r).dropWhile fun b => !isEnd b))
  | s => some (some (none, s))

/-- parser/encoding.py:255-320: the attribute loop. `total` is the length of the data, so that the offset is `total` minus the length of
the rest. The first argument bounds the rounds (each consumes a byte). -/
def metaLoop (total : Nat) : Nat → MetaAttrs → Bytes → MetaEnd
  | 0, _, _ => .other
  | _ + 1, _, [] => .other
  | fuel + 1, a, ch :: t =>
    if total - (t.length + 1) ≥ maxScan then .other
    else if ch = 0x3E then .gt a t
    else if ch = 0x3C then .other
    else if bSpace ch || ch = 0x2F then metaLoop total fuel a t
    else
      let isEnd := fun b => bSpace b || b = 0x3D || b = 0x3E || b = 0x2F || b = 0x3C
      let name := ((ch :: t).takeWhile fun b => !isEnd b).map bLower
      match metaValue (((ch :: t).dropWhile fun b => !isEnd b).dropWhile bSpace) with
      | none => .other
      | some none => .unclosed
      | some (some (v, rest)) => metaLoop total fuel (a.set name v) rest

/-- parser/encoding.py:322-333: what a complete `<meta>` tag declares. Empty values do not count. -/
def metaDeclares (U : Uni) (a : MetaAttrs) : Option Str :=
  let byCharset := match a.charset with | some c => if c.isEmpty then none else normMeta U c | none => none
  match byCharset with
  | some e => some e
  | none =>
    match a.httpEquiv, a.content with
    | some h, some c =>
      if h.map bLower = ascii c%"content-type" && !c.isEmpty then
        match extractCharset c with
        | some x => if x.isEmpty then none else normMeta U x
        | none => none
      else none
    | _, _ => none

/-- parser/encoding.py:171-344 `_prescan_for_meta_charset`: the main loop. `i` is the offset, `nc` the bytes outside comments; the first
argument bounds the rounds. -/
def prescanF (U : Uni) (total : Nat) : Nat → Nat → Bytes → Option Str
  | 0, _, _ => none
  | _ + 1, _, [] => none
  | fuel + 1, nc, c :: t =>
    let i := total - (t.length + 1)
    if i ≥ maxScan || nc ≥ maxNonComment then none
    else if c ≠ 0x3C then prescanF U total fuel (nc + 1) t
    else if t.take 3 = ascii c%"!--" then
      match bFind (ascii c%"-->") (t.drop 3) with
      | none => none
      | some (_, rest) => prescanF U total fuel nc rest
    else if t.head? = some 0x2F then
      let r := skipTag none i nc (c :: t)
      prescanF U total fuel r.2.1 r.2.2
    else if !(t.head?.any bAlpha) then prescanF U total fuel (nc + 1) t
    else if (t.takeWhile bAlpha).map bLower ≠ ascii c%"meta" then
      let r := skipTag none i nc (c :: t)
      prescanF U total fuel r.2.1 r.2.2
    else
      match metaLoop total (t.length + 1) {} (t.dropWhile bAlpha) with
      | .gt a rest =>
        match metaDeclares U a with
        | some e => some e
        | none => prescanF U total fuel (nc + ((t.length + 1) - rest.length)) rest
      | .other => prescanF U total fuel (nc + 1) t
      | .unclosed => prescanF U total fuel (nc + 2) (t.drop 1)

/-- `_prescan_for_meta_charset(data)`: every round consumes at least one byte. -/
def prescan (U : Uni) (data : Bytes) : Option Str := prescanF U data.length (data.length + 1) 0 data

/-- parser/encoding.py:347-362 `sniff_html_encoding`. -/
def sniff (U : Uni) (data : Bytes) (transport : Option Str) : Str × Nat :=
  match sniffBom data with
  | some r => r
  | none =>
    match transport.bind (normLabel U) with
    | some e => (e, 0)
    | none =>
      match prescan U data with
      | some e => (e, 0)
      | none => (c%"windows-1252", 0)

/-- parser/encoding.py:372-381 the supported decoders. -/
def supportedEncodings : List Str :=
  [c%"utf-8", c%"windows-1252", c%"iso-8859-2", c%"euc-jp", c%"utf-16", c%"utf-16le", c%"utf-16be"]

/-- parser/encoding.py:365-406 `decode_html`: the payload handed to the decoder and the decoder's name (the decoders are CPython's). -/
def decodeHtml (U : Uni) (data : Bytes) (transport : Option Str) : Bytes × Str :=
  let (enc, bom) := sniff U data transport
  if supportedEncodings.contains enc then (data.drop bom, enc) else (data, c%"windows-1252")

end JH
