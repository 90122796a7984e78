import Verif.Model.Py
/-! ECMAScript string literal bodies (ECMA-262 12.9.4), written independently of the model.
`evalJs q s` evaluates the text between the quotes `q ... q`; `none` means the text is not a complete literal
body: it contains the raw quote, a raw line terminator, or an invalid escape. Octal escapes, `\u{...}` and line
continuations are not needed and are rejected (rejecting more makes the theorem stronger). -/
namespace JH.Spec

/-- Value of a hexadecimal digit. -/
def jsHex (c : Char) : Option Nat :=
  if '0' ≤ c ∧ c ≤ '9' then some (c.toNat - 48)
  else if 'a' ≤ c ∧ c ≤ 'f' then some (c.toNat - 87)
  else if 'A' ≤ c ∧ c ≤ 'F' then some (c.toNat - 55)
  else none

/-- The value of a literal body. -/
def evalJs (q : Char) : Str → Option Str
  | [] => some []
  | '\\' :: 'u' :: a :: b :: c :: d :: rest =>
    match jsHex a, jsHex b, jsHex c, jsHex d with
    | some a, some b, some c, some d => (evalJs q rest).map (Char.ofNat (a * 4096 + b * 256 + c * 16 + d) :: ·)
    | _, _, _, _ => none
  | '\\' :: 'n' :: rest => (evalJs q rest).map ('\n' :: ·)
  | '\\' :: 'r' :: rest => (evalJs q rest).map ('\r' :: ·)
  | '\\' :: 't' :: rest => (evalJs q rest).map ('\t' :: ·)
  | '\\' :: 'b' :: rest => (evalJs q rest).map ('\x08' :: ·)
  | '\\' :: 'f' :: rest => (evalJs q rest).map ('\x0c' :: ·)
  | '\\' :: '\\' :: rest => (evalJs q rest).map ('\\' :: ·)
  | '\\' :: '"' :: rest => (evalJs q rest).map ('"' :: ·)
  | '\\' :: '\'' :: rest => (evalJs q rest).map ('\'' :: ·)
  | '\\' :: _ => none
  | c :: rest =>
    if c = q ∨ c = '\n' ∨ c = '\r' ∨ c = '\u2028' ∨ c = '\u2029' then none
    else (evalJs q rest).map (c :: ·)

end JH.Spec
