import Verif.Model.Py
/-! How a browser reads a URL (WHATWG URL standard), as far as scheme and host are concerned. Used by C15-C22. -/
namespace JH.Spec

/-- C0 control or space. -/
def c0OrSpace (c : Char) : Bool := c.toNat ≤ 0x20

/-- ASCII tab or newline. -/
def tabOrNewline (c : Char) : Bool := c = '\t' || c = '\n' || c = '\r'

/-- The URL parser first trims C0 controls and spaces, then removes tabs and newlines anywhere. -/
def urlInput (v : Str) : Str :=
  ((v.dropWhile c0OrSpace).reverse.dropWhile c0OrSpace).reverse.filter fun c => !tabOrNewline c

def letter (c : Char) : Bool := ('a' ≤ c && c ≤ 'z') || ('A' ≤ c && c ≤ 'Z')

def schemeChar (c : Char) : Bool := letter c || ('0' ≤ c && c ≤ '9') || c = '+' || c = '-' || c = '.'

/-- Scheme state: scheme characters up to a colon. -/
def schemeTail : Str → Option (Str × Str)
  | [] => none
  | c :: r =>
    if c = ':' then some ([], r)
    else if schemeChar c then (schemeTail r).map fun x => (c :: x.1, x.2)
    else none

/-- Scheme start state: a letter, then scheme characters, then a colon. Returns the scheme as written and the rest. -/
def splitScheme : Str → Option (Str × Str)
  | [] => none
  | c :: r => if letter c then (schemeTail r).map fun x => (c :: x.1, x.2) else none

/-- The scheme a browser sees, in lower case; `none` for a relative reference. -/
def browserScheme (v : Str) : Option Str := (splitScheme (urlInput v)).map fun x => lowerA x.1

/-- A configured scheme name is a scheme. -/
def SchemeName (r : Str) : Prop := splitScheme (r ++ [':']) = some (r, [])

/-- Path separators of special URLs. -/
def slash (c : Char) : Bool := c = '/' || c = '\\'

/-- What may follow the host: nothing, or a colon and decimal digits. -/
def portText : Str → Bool
  | [] => true
  | ':' :: p => p.all fun c => '0' ≤ c && c ≤ '9'
  | _ => false

/-- Host of an authority without credentials: `[...]` or the text up to the port. `none` when the browser rejects the URL. -/
def hostText (h : Str) : Option Str :=
  match h with
  | '[' :: r =>
    let inner := r.takeWhile (· ≠ ']')
    match r.drop inner.length with
    | ']' :: p => if portText p then some inner else none
    | _ => none
  | _ =>
    let host := h.takeWhile (· ≠ ':')
    if host.isEmpty || host.contains '[' || host.contains ']' || !portText (h.drop host.length) then none else some host

/-- The host text a browser uses for an absolute URL with a special scheme: any number of slashes or backslashes after the
scheme is skipped, the authority ends at the next slash, backslash, `?` or `#`, credentials end at the last `@`. Lower-cased. -/
def browserHost (v : Str) : Option Str :=
  match splitScheme (urlInput v) with
  | none => none
  | some (_, rest) =>
    let authority := (rest.dropWhile slash).takeWhile fun c => !(slash c || c = '?' || c = '#')
    (hostText (authority.reverse.takeWhile (· ≠ '@')).reverse).map lowerA

/-- Is the reference, as a browser reads it, relative to the current scheme but with its own host (`//host`)? -/
def networkPath (v : Str) : Bool :=
  match urlInput v with
  | a :: b :: _ => slash a && slash b
  | _ => false

/-- The `name=value` pieces of the query of a URL, as written. -/
def queryPairs (u : Str) : List (Str × Str) :=
  let noFragment := u.takeWhile (· ≠ '#')
  (splitC '&' ((noFragment.dropWhile (· ≠ '?')).drop 1)).map fun piece => ((partitionC '=' piece).1, (partitionC '=' piece).2.2)

end JH.Spec
