import Verif.Model.Url
/-! Model of sanitizer/css.py: inline `style` attributes. -/
namespace JH

/-- sanitizer/css.py:23-32 `_is_valid_css_property_name`. -/
def validCssProp (name : Str) : Bool := !name.isEmpty && name.all fun c => isLowerC c || isDigitC c || c = '-'

/-- `ord(ch) <= 0x20 or ord(ch) == 0x7f` (sanitizer/css.py:68). -/
def cssIgnorable (c : Char) : Bool := c.toNat ≤ 0x20 || c.toNat = 0x7f

/-- The scanning loop of `_css_value_contains_disallowed_functions` (sanitizer/css.py:48-73): comments, blanks and control
characters are skipped, ASCII letters lower-cased. The flag says whether the scan is inside a comment; `none` is the early
`return True` for an unterminated comment. -/
def cssCompact : Bool → Str → Option Str
  | false, [] => some []
  | false, '/' :: '*' :: t => cssCompact true t
  | false, c :: t => if cssIgnorable c then cssCompact false t else (cssCompact false t).map (lowerC c :: ·)
  | true, '*' :: '/' :: t => cssCompact false t
  | true, _ :: t => cssCompact true t
  | true, [] => none

/-- sanitizer/css.py:77 the keywords that are refused as a whole value. -/
def cssAmbient : List Str := [c%"inherit", c%"revert", c%"revert-layer", c%"unset"]

/-- sanitizer/css.py:80-94 `blocked_tokens`. -/
def cssBlocked : List Str :=
  [c%"@import", c%"var(", c%":inherit", c%":revert", c%":unset", c%"src(", c%"image(", c%"image-set(", c%"expression(", c%"progid:",
    c%"alphaimageloader", c%"behavior:", c%"-moz-binding"]

/-- `str.removesuffix`. -/
def removeSuffix (p s : Str) : Str := if endsWith p s then s.take (s.length - p.length) else s

/-- sanitizer/css.py:35-98 `_css_value_contains_disallowed_functions`. -/
def cssDisallowed (v : Str) (allowUrl : Bool) : Bool :=
  if v.contains '\\' then true
  else match cssCompact false v with
    | none => true
    | some compact =>
      cssAmbient.contains (removeSuffix c%"!important" compact) || cssBlocked.any (isIn · compact) || (!allowUrl && isIn c%"url(" compact)

/-- One `url(` argument, from the text after the parenthesis (sanitizer/css.py:152-185): the raw URL and the text after `)`. -/
def cssUrlArg (E : UrlEnv) (s : Str) : Option (Str × Str) :=
  match s.dropWhile (fun c => c.toNat ≤ 0x20) with
  | [] => none
  | q :: t =>
    if q = '"' || q = '\'' then
      if !t.contains q then none
      else
        match ((t.dropWhile (· ≠ q)).drop 1).dropWhile (fun c => c.toNat ≤ 0x20) with
        | ')' :: after => some (t.takeWhile (· ≠ q), after)
        | _ => none
    else
      if !(q :: t).contains ')' then none
      else
        let raw := stripP E.U.isSpace ((q :: t).takeWhile (· ≠ ')'))
        if raw.isEmpty || raw.any cssIgnorable then none
        else some (raw, ((q :: t).dropWhile (· ≠ ')')).drop 1)

/-- sanitizer/css.py:190-194: the boundary test after `url(...)`. -/
def cssBoundary : Str → Bool
  | [] => true
  | c :: _ => c.toNat ≤ 0x20 || c = ',' || c = '/'

/-- sanitizer/css.py:211-214: characters that may not occur in a rewritten URL. -/
def cssUnsafe (c : Char) : Bool := cssIgnorable c || c = '\'' || c = '"' || c = '(' || c = ')' || c = '\\'

/-- The loop of `_sanitize_url_function_value` (sanitizer/css.py:139-221). Positions `i` are offsets both in the value and in its
lower-cased form, as in the code; `san` is the URL check. The first argument bounds the number of rounds (each round moves `i` forward). -/
def cssRewrite (E : UrlEnv) (san : Str → Option Str) (lower v : Str) : Nat → Nat → Option Str
  | 0, _ => none
  | fuel + 1, i =>
    match find? c%"url(" (lower.drop i) with
    | none => some (v.drop i)
    | some d =>
      match cssUrlArg E (v.drop (i + d + 4)) with
      | none => none
      | some (raw, after) =>
        if !cssBoundary after then none
        else match san raw with
          | none => none
          | some u =>
            if u.any cssUnsafe then none
            else (cssRewrite E san lower v fuel (v.length - after.length)).map fun r =>
              (v.drop i).take d ++ c%"url('" ++ u ++ c%"')" ++ r

/-- sanitizer/css.py:115-223 `_sanitize_url_function_value`. -/
def cssUrlValue (E : UrlEnv) (san : Str → Option Str) (v : Str) : Option Str :=
  if v.contains '\\' || isIn c%"/*" v then none
  else if !isIn c%"url(" (E.U.lower v) then none
  else cssRewrite E san (E.U.lower v) v (v.length + (E.U.lower v).length + 1) 0

/-- sanitizer/css.py:110-112 `_lookup_css_url_rule`. -/
def cssRule (p : UrlPolicy) (tag prop : Str) : Option UrlRule :=
  match p.rules.lookup (tag, c%"style:" ++ prop) with
  | some r => some r
  | none => p.rules.lookup (c%"*", c%"style:" ++ prop)

/-- sanitizer/css.py:224-239 `_sanitize_css_url_functions`. -/
def cssUrls (E : UrlEnv) (p : UrlPolicy) (tag prop v : Str) : Option Str :=
  match cssRule p tag prop with
  | none => none
  | some rule => cssUrlValue E (sanitizeSimple E p rule tag (c%"style:" ++ prop)) v

/-- The value part of one declaration (sanitizer/css.py:273-292): `none` means the declaration is dropped. -/
def cssValue (E : UrlEnv) (pol : Option UrlPolicy) (tag prop v : Str) : Option Str :=
  if v.isEmpty then none
  else if cssAmbient.contains (E.U.lower v) then none
  else if cssDisallowed v false then
    match pol with
    | none => none
    | some p => if cssDisallowed v true then none else cssUrls E p tag prop v
  else some v

/-- One declaration (sanitizer/css.py:260-294). -/
def cssDecl (E : UrlEnv) (allowed : List Str) (pol : Option UrlPolicy) (tag decl : Str) : Option (Str × Str) :=
  let d := stripP E.U.isSpace decl
  if d.isEmpty || !d.contains ':' || d.head? = some ':' then none
  else
    let prop := E.U.lower (stripP E.U.isSpace (d.takeWhile (· ≠ ':')))
    if !validCssProp prop || !allowed.contains prop then none
    else (cssValue E pol tag prop (stripP E.U.isSpace ((d.dropWhile (· ≠ ':')).drop 1))).map fun v => (prop, v)

/-- The declarations kept by `_sanitize_inline_style` (sanitizer/css.py:257-294). -/
def cssDecls (E : UrlEnv) (allowed : List Str) (pol : Option UrlPolicy) (tag v : Str) : List (Str × Str) :=
  (splitC ';' v).filterMap (cssDecl E allowed pol (E.U.lower tag))

/-- One declaration as text (sanitizer/css.py:294). -/
def cssText (d : Str × Str) : Str := d.1 ++ c%": " ++ d.2

/-- sanitizer/css.py:242-298 `_sanitize_inline_style`. -/
def sanitizeStyle (E : UrlEnv) (allowed : List Str) (pol : Option UrlPolicy) (tag v : Str) : Option Str :=
  if allowed.isEmpty || v.isEmpty then none
  else match cssDecls E allowed pol tag v with
    | [] => none
    | ds => some (join c%"; " (ds.map cssText))

end JH
