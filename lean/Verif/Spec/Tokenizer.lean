import Verif.Model.Py
/-! Fragments of the WHATWG HTML tokenizer (HTML standard 13.2.5), written independently of the code under
verification. Each `run...` function consumes input after the opening characters of a token and returns the token together
with the input that follows it; `none` means end of file inside the token. -/
namespace JH.Spec

/-- NUL is replaced by U+FFFD in comment data. -/
def nul (c : Char) : Char := if c = '\x00' then '\ufffd' else c

/-! ### Comments (13.2.5.43 – 13.2.5.52) -/

/-- Comment states. -/
inductive CState | start | startDash | comment | lessThan | ltBang | ltBangDash | ltBangDashDash | endDash | «end» | endBang
  deriving DecidableEq, Repr

/-- Result of one character: the token is emitted, or the next state; plus the data appended. -/
inductive CStep | emit | next (s : CState) (app : Str)

/-- "comment state" (13.2.5.45). -/
def cComment (pre : Str) (c : Char) : CStep :=
  if c = '<' then .next .lessThan (pre ++ ['<'])
  else if c = '-' then .next .endDash pre
  else .next .comment (pre ++ [nul c])

/-- "comment end dash state" (13.2.5.50). -/
def cEndDash (c : Char) : CStep :=
  if c = '-' then .next .end [] else cComment ['-'] c

/-- "comment end state" (13.2.5.51). -/
def cEnd (c : Char) : CStep :=
  if c = '>' then .emit
  else if c = '!' then .next .endBang []
  else if c = '-' then .next .end ['-']
  else cComment ['-', '-'] c

/-- One character in a given comment state. -/
def cStep : CState → Char → CStep
  | .start, c => if c = '-' then .next .startDash [] else if c = '>' then .emit else cComment [] c
  | .startDash, c => if c = '-' then .next .end [] else if c = '>' then .emit else cComment ['-'] c
  | .comment, c => cComment [] c
  | .lessThan, c => if c = '!' then .next .ltBang ['!'] else if c = '<' then .next .lessThan ['<'] else cComment [] c
  | .ltBang, c => if c = '-' then .next .ltBangDash [] else cComment [] c
  | .ltBangDash, c => if c = '-' then .next .ltBangDashDash [] else cEndDash c
  | .ltBangDashDash, c => cEnd c
  | .endDash, c => cEndDash c
  | .end, c => cEnd c
  | .endBang, c =>
    if c = '-' then .next .endDash ['-', '-', '!'] else if c = '>' then .emit else cComment ['-', '-', '!'] c

/-- Run the comment states from state `s` with data `acc`. -/
def runComment : CState → Str → Str → Option (Str × Str)
  | _, _, [] => none
  | s, acc, c :: rest =>
    match cStep s c with
    | .emit => some (acc, rest)
    | .next s' app => runComment s' (acc ++ app) rest

/-! ### Bogus comments (13.2.5.41): everything up to the first `>` -/

/-- Run the bogus comment state. -/
def runBogus : Str → Str → Option (Str × Str)
  | _, [] => none
  | acc, c :: rest => if c = '>' then some (acc, rest) else runBogus (acc ++ [nul c]) rest

/-! ### DOCTYPE (13.2.5.53 – 13.2.5.68) -/

/-- The white space of the doctype states. -/
def dSpace (c : Char) : Bool := c = '\t' || c = '\n' || c = '\x0c' || c = ' '

/-- DOCTYPE states; `skip n s` consumes `n` more characters (the tail of a matched keyword) and continues in `s`. -/
inductive DState
  | doctype | beforeName | name | afterName | afterPubKw | beforePub | pubDQ | pubSQ | afterPub | between
  | afterSysKw | beforeSys | sysDQ | sysSQ | afterSys | bogus
  | skip (n : Nat) (s : DState)
  deriving DecidableEq, Repr

/-- The doctype token under construction. -/
structure DTok where
  name : Option Str := none
  pub : Option Str := none
  sys : Option Str := none
  quirks : Bool := false
  deriving DecidableEq, Repr

/-- ASCII lower-casing, as in the tokenizer. -/
def low (c : Char) : Char := if 'A' ≤ c ∧ c ≤ 'Z' then Char.ofNat (c.toNat + 32) else c

/-- Case-insensitive keyword test at the current position. -/
def kwAt (kw : Str) (s : Str) : Bool := (s.take kw.length).map low = kw

/-- Append to a present string. -/
def app (o : Option Str) (c : Char) : Option Str := some (o.getD [] ++ [c])

/-- Run the doctype states. In every state `>` ends the token. -/
def runDoctype : DState → DTok → Str → Option (DTok × Str)
  | _, _, [] => none
  | st, t, c :: r =>
    match st with
    | .doctype => if dSpace c then runDoctype .beforeName t r
        else if c = '>' then some ({ t with quirks := true }, r)
        else runDoctype .name { t with name := some [nul (low c)] } r
    | .beforeName => if dSpace c then runDoctype .beforeName t r
        else if c = '>' then some ({ t with quirks := true }, r)
        else runDoctype .name { t with name := some [nul (low c)] } r
    | .name => if dSpace c then runDoctype .afterName t r
        else if c = '>' then some (t, r)
        else runDoctype .name { t with name := app t.name (nul (low c)) } r
    | .afterName => if dSpace c then runDoctype .afterName t r
        else if c = '>' then some (t, r)
        else if kwAt c%"public" (c :: r) then runDoctype (.skip 5 .afterPubKw) t r
        else if kwAt c%"system" (c :: r) then runDoctype (.skip 5 .afterSysKw) t r
        else runDoctype .bogus { t with quirks := true } r
    | .skip n s => match n with
        | 0 => if c = '>' then some ({ t with quirks := true }, r) else runDoctype .bogus t r   -- unused
        | 1 => runDoctype s t r
        | n + 2 => runDoctype (.skip (n + 1) s) t r
    | .afterPubKw | .beforePub => if dSpace c then runDoctype .beforePub t r
        else if c = '"' then runDoctype .pubDQ { t with pub := some [] } r
        else if c = '\'' then runDoctype .pubSQ { t with pub := some [] } r
        else if c = '>' then some ({ t with quirks := true }, r)
        else runDoctype .bogus { t with quirks := true } r
    | .pubDQ => if c = '"' then runDoctype .afterPub t r
        else if c = '>' then some ({ t with quirks := true }, r)
        else runDoctype .pubDQ { t with pub := app t.pub (nul c) } r
    | .pubSQ => if c = '\'' then runDoctype .afterPub t r
        else if c = '>' then some ({ t with quirks := true }, r)
        else runDoctype .pubSQ { t with pub := app t.pub (nul c) } r
    | .afterPub => if dSpace c then runDoctype .between t r
        else if c = '>' then some (t, r)
        else if c = '"' then runDoctype .sysDQ { t with sys := some [] } r
        else if c = '\'' then runDoctype .sysSQ { t with sys := some [] } r
        else runDoctype .bogus { t with quirks := true } r
    | .between => if dSpace c then runDoctype .between t r
        else if c = '>' then some (t, r)
        else if c = '"' then runDoctype .sysDQ { t with sys := some [] } r
        else if c = '\'' then runDoctype .sysSQ { t with sys := some [] } r
        else runDoctype .bogus { t with quirks := true } r
    | .afterSysKw | .beforeSys => if dSpace c then runDoctype .beforeSys t r
        else if c = '"' then runDoctype .sysDQ { t with sys := some [] } r
        else if c = '\'' then runDoctype .sysSQ { t with sys := some [] } r
        else if c = '>' then some ({ t with quirks := true }, r)
        else runDoctype .bogus { t with quirks := true } r
    | .sysDQ => if c = '"' then runDoctype .afterSys t r
        else if c = '>' then some ({ t with quirks := true }, r)
        else runDoctype .sysDQ { t with sys := app t.sys (nul c) } r
    | .sysSQ => if c = '\'' then runDoctype .afterSys t r
        else if c = '>' then some ({ t with quirks := true }, r)
        else runDoctype .sysSQ { t with sys := app t.sys (nul c) } r
    | .afterSys => if dSpace c then runDoctype .afterSys t r
        else if c = '>' then some (t, r)
        else runDoctype .bogus t r
    | .bogus => if c = '>' then some (t, r) else runDoctype .bogus t r

/-! ### Raw text end tags (13.2.5.12 – 13.2.5.14) -/

/-- The text contains an "appropriate end tag" for `tag` (lower case): `</`, the name in any ASCII case, and then
white space, `/`, `>` or the end of the text. (White space includes CR, which input preprocessing turns into LF.) -/
def HasEndTag (tag s : Str) : Prop :=
  ∃ pre name post, s = pre ++ ('<' :: '/' :: name) ++ post ∧ name.map low = tag ∧
    (post = [] ∨ ∃ c r, post = c :: r ∧ c ∈ ['\t', '\n', '\x0c', '\r', ' ', '/', '>'])

/-- An end tag for `tag` starts at the beginning of the text. -/
def EndHere (tag t : Str) : Prop :=
  ∃ name post, t = ('<' :: '/' :: name) ++ post ∧ name.map low = tag ∧
    (post = [] ∨ ∃ d r, post = d :: r ∧ d ∈ ['\t', '\n', '\x0c', '\r', ' ', '/', '>'])

/-- Every offending `<` replaced by `&lt;`, everything else unchanged (specification of neutralization). -/
noncomputable def neutralized (tag : Str) : Str → Str
  | [] => []
  | c :: cs =>
    open Classical in
    if EndHere tag (c :: cs)
    then c%"&lt;" ++ neutralized tag cs
    else c :: neutralized tag cs

end JH.Spec
