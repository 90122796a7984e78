import Verif.Spec.TextOps
/-! How a browser reads attributes that carry several URLs or a refresh instruction (HTML standard). Used by C19, C20, C22. -/
namespace JH.Spec

/-- The maximal runs of characters that are not separators, in order. -/
def runs (sep : Char → Bool) : Str → List Str
  | [] => []
  | c :: t =>
    if sep c then runs sep t
    else match t with
      | [] => [[c]]
      | d :: _ =>
        if sep d then [c] :: runs sep t
        else match runs sep t with
          | w :: r => (c :: w) :: r
          | [] => [[c]]

/-- States of the srcset parser: between candidates, in a URL (collected so far), in descriptors, in parentheses there. -/
inductive SrcsetState
  | start
  | url (acc : Str)
  | desc
  | parens

/-- The URL of a candidate: trailing commas belong to the separator. -/
def trimCommas (u : Str) : Str := (u.reverse.dropWhile (· = ',')).reverse

/-- Parse a srcset attribute: the URLs of its image candidates, in order. -/
def srcsetScan : SrcsetState → Str → List Str
  | .url acc, [] => [trimCommas acc]
  | _, [] => []
  | .start, c :: t => if ws c || c = ',' then srcsetScan .start t else srcsetScan (.url [c]) t
  | .url acc, c :: t =>
    if ws c then
      if acc.getLast? = some ',' then trimCommas acc :: srcsetScan .start t else acc :: srcsetScan .desc t
    else srcsetScan (.url (acc ++ [c])) t
  | .desc, c :: t => if c = ',' then srcsetScan .start t else if c = '(' then srcsetScan .parens t else srcsetScan .desc t
  | .parens, c :: t => if c = ')' then srcsetScan .desc t else srcsetScan .parens t

def srcsetUrls (s : Str) : List Str := srcsetScan .start s

def asciiDigit (c : Char) : Bool := '0' ≤ c && c ≤ '9'

/-- "Skip quotes": the target, with an optional quoted form. -/
def refreshTarget : Str → Str
  | [] => []
  | q :: r => if q = '\'' || q = '"' then r.takeWhile (· ≠ q) else q :: r

/-- The optional `url =` marker before the target. -/
def refreshMarked : Str → Str
  | u :: s =>
    if u = 'u' || u = 'U' then
      match s with
      | r :: l :: t =>
        if (r = 'r' || r = 'R') && (l = 'l' || l = 'L') then
          match t.dropWhile ws with
          | '=' :: t' => refreshTarget (t'.dropWhile ws)
          | _ => u :: s
        else u :: s
      | _ => u :: s
    else refreshTarget (u :: s)
  | [] => []

/-- The URL of a `<meta http-equiv=refresh>` content value, `none` when the browser ignores it or only reloads. -/
def refreshUrl (v : Str) : Option Str :=
  let s := v.dropWhile ws
  let afterDigits := s.dropWhile asciiDigit
  if (s.takeWhile asciiDigit).isEmpty && afterDigits.head? ≠ some '.' then none
  else
    match afterDigits.dropWhile (fun c => asciiDigit c || c = '.') with
    | [] => none
    | c :: t =>
      if !(c = ';' || c = ',' || ws c) then none
      else
        let r := (c :: t).dropWhile ws
        let r := match r with | d :: r' => if d = ';' || d = ',' then r' else d :: r' | [] => []
        match r.dropWhile ws with
        | [] => none
        | rest => some (refreshMarked rest)

end JH.Spec
