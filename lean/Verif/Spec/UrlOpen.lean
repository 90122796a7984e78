import Verif.Spec.Url
import Verif.Spec.TextOps
/-! The host a browser connects to when the host text contains percent escapes (WHATWG URL standard, host parsing). Used by C97. -/
namespace JH.Spec

/-- Characters a domain may not contain after percent-decoding (WHATWG "forbidden domain code point"): controls, space, `%`, delete and
`# / : < > ? @ [ \ ] ^ |`. -/
def forbiddenHostChar (c : Char) : Bool := c.toNat ≤ 0x20 || c.toNat = 0x7f || c%"#%/:<>?@[\\]^|".contains c

/-- Host of an authority without credentials after percent-decoding as UTF-8; `none` when the browser rejects the URL. -/
def decodedHost (h : Str) : Option Str :=
  match hostText h with
  | none => none
  | some t =>
    match (percentDecode t).bind utf8Decode with
    | none => none
    | some d => if d.any forbiddenHostChar then none else some (lowerA d)

/-- The domain a browser opens for an absolute URL with a special scheme, percent escapes in the host decoded. -/
def openedHost (v : Str) : Option Str :=
  match splitScheme (urlInput v) with
  | none => none
  | some (_, rest) =>
    let authority := (rest.dropWhile slash).takeWhile fun c => !(slash c || c = '?' || c = '#')
    decodedHost (authority.reverse.takeWhile (· ≠ '@')).reverse

end JH.Spec
